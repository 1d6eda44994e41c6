/-
The environment of an integrator made from the models of the orthorhombic
boundary, the cell list and the pair list (`Boundary`, `McCellList`,
`McPairList`), with a pair interaction that has a cutoff.  It computes the sum
of the pair forces over nearest periodic images as long as no atom moves too far
in one step.

  src/mcMd/potentials/pair/MdPairPotential.cpp, MdPairPotentialImpl.h
-/
import Verif.Integrate.Verlet
import Verif.McPairList.Props
import Verif.Cluster.Cells
import Mathlib.Algebra.BigOperators.Fin
import Mathlib.Algebra.Order.Round

set_option autoImplicit false

namespace Verif.Integrate

open Verif.Boundary Verif.McCellList Verif.McPairList Verif.McCell

/-! ### Model -/

/-- Parameters of a system of `N` atoms: boundary, interaction, and pair list.
`cutSq`, `forceOverR`: functions of the interaction class; `other`: forces of all
other potentials. -/
structure PairSystem (N : ℕ) where
  box : Ortho
  typ : Fin N → ℕ
  nType : ℕ
  mass : ℕ → ℝ
  masked : ℕ → ℕ → Prop
  cutSq : ℕ → ℕ → ℝ
  forceOverR : ℝ → ℕ → ℕ → ℝ
  other : (Fin N → Vec) → Fin N → Vec
  rc : ℝ
  skin : ℝ
  cellCap : ℕ
  atomCap : ℤ
  pairCap : ℤ

variable {N : ℕ}

/-- Positions as a function of the atom id. -/
def byId (p : Fin N → Vec) (a : ℕ) : Vec := if h : a < N then p ⟨a, h⟩ else fun _ => 0

/-- `MdPairPotential::buildPairList` (MdPairPotential.cpp:37-66) after the atoms
have been shifted: the cell list is set up, the atoms are added to it, the pair
list is built.  `none`: an exception or a failed assertion, which ends the
program. -/
noncomputable def PairSystem.build (y : PairSystem N) (l : Option PL) (q : Fin N → Vec) : Option PL :=
  match setup y.box.lengths (y.rc + y.skin) with
  | none => none
  | some s0 =>
    match run y.box.toGen y.cellCap s0
        ((List.finRange N).map fun i : Fin N => Op.add (i : ℕ) (byId q i)) with
    | .ok cl => McPairList.build ⟨byId q, y.masked, y.box.distanceSq, y.rc + y.skin, y.atomCap, y.pairCap⟩
        cl (l.getD (alloc y.atomCap))
    | _ => none

/-- One iteration of the loop of `MdPairPotentialImpl::addForces`
(MdPairPotentialImpl.h:302-315). -/
noncomputable def PairSystem.addPair (y : PairSystem N) (p : Fin N → Vec) (f : Fin N → Vec)
    (x : Option ℕ × Option ℕ) : Fin N → Vec :=
  match x with
  | (some a, some b) =>
    if h : a < N ∧ b < N then
      let i : Fin N := ⟨a, h.1⟩
      let j : Fin N := ⟨b, h.2⟩
      let rsq := y.box.distanceSq (p i) (p j)
      if rsq < y.cutSq (y.typ i) (y.typ j) then
        let force := y.forceOverR rsq (y.typ i) (y.typ j) • y.box.separation (p i) (p j)
        let f := Function.update f i (f i + force)
        Function.update f j (f j - force)
      else f
    else f
  | _ => f

/-- `MdPairPotentialImpl::addForces` (MdPairPotentialImpl.h:285-318) once the list
is current, starting from zero. -/
noncomputable def PairSystem.pairForces (y : PairSystem N) (st : PL) (p : Fin N → Vec) : Fin N → Vec :=
  st.pairs.foldl (y.addPair p) fun _ => 0

open Classical in
/-- The environment of the integrators. -/
noncomputable def PairSystem.world (y : PairSystem N) : World (Fin N) (Option PL) where
  atoms := List.finRange N
  typ := y.typ
  nType := y.nType
  mass := y.mass
  shift := y.box.shift
  isCurrent l p := match l with
    | none => false
    | some st => decide (st.isCurrent y.box.distanceSq y.skin y.atomCap (byId p))
  build := y.build
  forces l p := match l with
    | none => fun _ => 0
    | some st => fun i => y.pairForces st p i + y.other p i

/-! ### Specification -/

/-- Lattice translations. -/
def lattice (L : Vec) : AddSubgroup Vec where
  carrier := {v | ∃ k : IVec, v = latVec L k}
  zero_mem' := ⟨0, by funext i; simp [latVec]⟩
  add_mem' := by
    rintro _ _ ⟨k, rfl⟩ ⟨k', rfl⟩
    exact ⟨k + k', by funext i; simp [latVec, add_mul]⟩
  neg_mem' := by
    rintro _ ⟨k, rfl⟩
    exact ⟨-k, by funext i; simp [latVec]⟩

/-- The nearest periodic image of a separation. -/
noncomputable def nearest (L : Vec) (v : Vec) : Vec := fun i => v i - round (v i / L i) * L i

/-- Force on an atom of type `t` by an atom of type `t'`, `v` being the separation. -/
noncomputable def PairSystem.one (y : PairSystem N) (t t' : ℕ) (v : Vec) : Vec :=
  if normSq v < y.cutSq t t' then y.forceOverR (normSq v) t t' • v else 0

open Classical in
/-- The force on every atom: sum over all other atoms that are not masked, each
taken at its nearest image, plus the forces of the other potentials. -/
noncomputable def PairSystem.field (y : PairSystem N) (p : Fin N → Vec) (i : Fin N) : Vec :=
  (∑ j : Fin N, if i ≠ j ∧ ¬ y.masked i j then
    y.one (y.typ i) (y.typ j) (nearest y.box.lengths (p i - p j)) else 0) + y.other p i

/-- What is assumed of the parameters. -/
structure PairSystem.OK (y : PairSystem N) : Prop where
  box : y.box.Reach
  types : ∀ i, y.typ i < y.nType
  rc : 0 ≤ y.rc
  half : ∀ i, y.rc ≤ y.box.lengths i / 2
  skin : 0 < y.skin
  thin : ∀ i, y.skin ≤ y.box.lengths i / 4
  cut : ∀ t t', y.cutSq t t' ≤ y.rc ^ 2
  symm : ∀ t t', y.cutSq t t' = y.cutSq t' t
  fsymm : ∀ x t t', y.forceOverR x t t' = y.forceOverR x t' t
  mask : ∀ a b, y.masked a b ↔ y.masked b a
  other : ∀ p q, Image (lattice y.box.lengths) p q → y.other q = y.other p
  atomCap : (N : ℤ) ≤ y.atomCap
  pairCap : (N * N : ℤ) ≤ y.pairCap

/-- The cells of the cell list cannot be filled. -/
def PairSystem.Roomy (y : PairSystem N) (q : Fin N → Vec) : Prop :=
  ∀ s0, setup y.box.lengths (y.rc + y.skin) = some s0 → ∀ (c : IVec) (T : Finset (Fin N)),
    (∀ i ∈ T, InBox s0.n (y.box.toGen (q i)) c) → T.card < y.cellCap

/-- Positions in the primary cell that leave room in the cells. -/
def PairSystem.cell (y : PairSystem N) : Set (Fin N → Vec) :=
  {q | (∀ i, InCell y.box.lengths (q i)) ∧ y.Roomy q}

/-- No cell is filled if the atoms are moved to the primary cell. -/
def PairSystem.Fits (y : PairSystem N) (z : Fin N → Vec) : Prop :=
  ∀ q, Image (lattice y.box.lengths) z q → (∀ i, InCell y.box.lengths (q i)) → y.Roomy q

/-- Displacements of one step: at most `ρ` in every direction, and no cell filled
afterwards. -/
def PairSystem.adm (y : PairSystem N) (ρ : ℝ) (z d : Fin N → Vec) : Prop :=
  (∀ i j, |d i j| ≤ ρ) ∧ y.Fits fun i => z i + d i

/-- The list was built for positions `q`; the atoms are now within half a skin of
images of `q` which are not far from the primary cell. -/
def PairSystem.usable (y : PairSystem N) (l : Option PL) (p : Fin N → Vec) : Prop :=
  ∃ (l0 : Option PL) (q : Fin N → Vec) (k : Fin N → IVec), q ∈ y.cell ∧ l = y.build l0 q ∧
    (∀ i, normSq (p i - (q i + latVec y.box.lengths (k i))) ≤ (y.skin / 2) ^ 2) ∧
    (∀ i j, -(y.skin / 2) ≤ (q i + latVec y.box.lengths (k i)) j ∧
      (q i + latVec y.box.lengths (k i)) j ≤ y.box.lengths j + y.skin / 2) ∧
    (fun i => y.box.shift (p i)) ∈ y.cell

/-! ### Building the list -/

variable {y : PairSystem N}

theorem byId_val (p : Fin N → Vec) (i : Fin N) : byId p i = p i := by
  unfold byId
  rw [dif_pos i.2]

theorem PairSystem.OK.inUnit (ok : y.OK) {r : Vec} (h : InCell y.box.lengths r) :
    InUnit (y.box.toGen r) := by
  intro i
  have hp := ok.box.ok.pos i
  simp only [Ortho.toGen, ok.box.ok.inv, ← div_eq_mul_inv]
  rw [le_div_iff₀ hp, div_lt_iff₀ hp]
  simpa using h i

theorem ids_run (q : Fin N → Vec) :
    Abs.run ((List.finRange N).map fun i : Fin N => Op.add (i : ℕ) (byId q i)) =
      ⟨(Finset.range N), byId q⟩ := by
  have e : ((List.finRange N).map fun i : Fin N => Op.add (i : ℕ) (byId q i)) =
      (List.range N).map fun a => Op.add a (byId q a) := by
    rw [← List.map_coe_finRange_eq_range, List.map_map]
    rfl
  rw [e]
  unfold Abs.run
  have key : ∀ n, n ≤ N →
      ((List.range n).map fun a => Op.add a (byId q a)).foldl Abs.step ⟨∅, fun _ _ => 0⟩ =
        ⟨Finset.range n, fun a => if a < n then byId q a else fun _ => 0⟩ := by
    intro n hn
    induction n with
    | zero => simp
    | succ n ih =>
      rw [List.range_succ, List.map_append, List.foldl_append, ih (by omega)]
      simp only [List.map_cons, List.map_nil, List.foldl_cons, List.foldl_nil, Abs.step]
      congr 1
      · exact (Finset.range_add_one).symm
      · funext a
        by_cases h : a = n
        · subst h; simp
        · rw [Function.update_of_ne h]
          by_cases h' : a < n
          · rw [if_pos h', if_pos (by omega)]
          · rw [if_neg h', if_neg (by omega)]
  rw [key N le_rfl]
  congr 1
  funext a
  by_cases h : a < N
  · rw [if_pos h]
  · rw [if_neg h]
    unfold byId
    rw [dif_neg h]

theorem ids_allowed (ok : y.OK) {q : Fin N → Vec} (hq : q ∈ y.cell) {s0 : CL}
    (hs : setup y.box.lengths (y.rc + y.skin) = some s0) :
    AllowedHist y.box.toGen y.cellCap s0.n ⟨∅, fun _ _ => 0⟩
      ((List.finRange N).map fun i : Fin N => Op.add (i : ℕ) (byId q i)) := by
  have e : ((List.finRange N).map fun i : Fin N => Op.add (i : ℕ) (byId q i)) =
      (List.range N).map fun a => Op.add a (byId q a) := by
    rw [← List.map_coe_finRange_eq_range, List.map_map]
    rfl
  rw [e]
  refine Cluster.adds_allowed _ _ _ (by simp) List.nodup_range (by simp) ?_ ?_
  · intro a ha
    rw [List.mem_range] at ha
    unfold byId
    rw [dif_pos ha]
    exact ok.inUnit (hq.1 _)
  · intro c T hT
    have hT' : ∀ a ∈ T, a < N := fun a ha => by
      have := (hT a ha).1
      simpa using this
    have := hq.2 s0 hs c (T.attach.image fun a => ⟨a.1, hT' a.1 a.2⟩) (by
      intro i hi
      rw [Finset.mem_image] at hi
      obtain ⟨a, _, rfl⟩ := hi
      have := (hT a.1 a.2).2
      unfold byId at this
      rwa [dif_pos (hT' a.1 a.2)] at this)
    rwa [Finset.card_image_of_injective _ (fun a b h => Subtype.ext (Fin.mk.inj h)),
      Finset.card_attach] at this

/-- Building succeeds and lists the right pairs and the positions. -/
theorem build_ok (ok : y.OK) {q : Fin N → Vec} (hq : q ∈ y.cell) (l : Option PL) :
    ∃ st P, y.build l q = some st ∧ st.builds ≠ 0 ∧
      st.pairs = P.map (fun x => (some x.1, some x.2)) ∧
      ExactlyOnce (Finset.range N)
        (fun i j => ¬ y.masked i j ∧ y.box.distanceSq (byId q i) (byId q j) < (y.rc + y.skin) ^ 2) P ∧
      (∀ ip, (0 ≤ ip ∧ ip < st.n1 ∨ st.t1 < ip ∧ ip ≤ y.atomCap - 1) →
        ∃ i : Fin N, st.atom1 ip = some (i : ℕ) ∧ st.old ip = q i) ∧
      ∀ i : Fin N, ∃ ip, (0 ≤ ip ∧ ip < st.n1 ∨ st.t1 < ip ∧ ip ≤ y.atomCap - 1) ∧
        st.atom1 ip = some (i : ℕ) ∧ st.old ip = q i := by
  have hcut : 0 < y.rc + y.skin := by have := ok.rc; have := ok.skin; linarith
  obtain ⟨s0, hs⟩ := (setup_isSome y.box.lengths (y.rc + y.skin)).2 hcut
  have hal := ids_allowed ok hq hs
  obtain ⟨cl, hrun, _⟩ := C04_cell_list_tracks _ _ _ _ s0 hs _ hal
  have hA := ids_run q
  set c : Ctx := ⟨byId q, y.masked, y.box.distanceSq, y.rc + y.skin, y.atomCap, y.pairCap⟩ with hc
  obtain ⟨hex, hnd, hmem⟩ := allPairs_exact (geo_ortho ok.box) (dist_ortho ok.box) hs hal hrun c
    (by rw [hA]) rfl rfl
  rw [hA] at hex hmem
  obtain ⟨hok, hbad⟩ := build_spec (c := c) (cl := cl) (l.getD (alloc y.atomCap))
    (by have := ok.atomCap; simp only [hc]; omega) (by
      have := ok.pairCap
      have h2 : (0 : ℤ) ≤ N * N := by positivity
      simp only [hc]
      omega)
  have hlen : (allAtoms cl cl.tot.toNat).length = N := by
    rw [← List.toFinset_card_of_nodup hnd]
    have : (allAtoms cl cl.tot.toNat).toFinset = Finset.range N := by
      ext a
      rw [List.mem_toFinset]
      exact hmem a
    rw [this, Finset.card_range]
  have hplen : (allPairs c cl cl.tot.toNat).length ≤ N * N := by
    rw [← List.toFinset_card_of_nodup hex.1]
    have : (allPairs c cl cl.tot.toNat).toFinset ⊆ Finset.range N ×ˢ Finset.range N := by
      rintro ⟨i, j⟩ h
      rw [List.mem_toFinset] at h
      have := (hex.2 i j).1 h
      exact Finset.mem_product.2 ⟨this.1, this.2.1⟩
    refine (Finset.card_le_card this).trans ?_
    rw [Finset.card_product, Finset.card_range]
  have e : y.build l q = McPairList.build c cl (l.getD (alloc y.atomCap)) := by
    unfold PairSystem.build
    simp only [hs, hrun, hc]
  cases hb : McPairList.build c cl (l.getD (alloc y.atomCap)) with
  | none =>
    exfalso
    have h1 := ok.atomCap
    have h2 := ok.pairCap
    rcases hbad hb with h | h
    · rw [hlen] at h
      simp only [hc] at h
      omega
    · simp only [hc] at h
      have : ((allPairs c cl cl.tot.toNat).length : ℤ) ≤ N * N := by exact_mod_cast hplen
      simp only [hc] at this
      omega
  | some st =>
    obtain ⟨hne, hJ⟩ := hok st hb
    refine ⟨st, _, by rw [e, hb], hne, hJ.pairs_eq, hex, ?_, ?_⟩
    · intro ip hip
      obtain ⟨a, ha, h1, h2⟩ := hJ.tot ip hip
      have := (hmem a).1 ha
      rw [Finset.mem_range] at this
      refine ⟨⟨a, this⟩, h1, ?_⟩
      rw [h2]
      exact dif_pos this
    · intro i
      obtain ⟨ip, hip, h1, h2⟩ := hJ.recd i ((hmem i).2 (Finset.mem_range.2 i.2))
      exact ⟨ip, hip, h1, by rw [h2]; exact byId_val q i⟩

/-! ### Geometry -/

theorem normSq_comp {v : Vec} {a : ℝ} (ha : 0 ≤ a) (h : normSq v ≤ a ^ 2) (j : Fin 3) :
    |v j| ≤ a := by
  apply abs_le_of_sq_le_sq _ ha
  unfold normSq at h
  fin_cases j <;> simp <;> nlinarith [sq_nonneg (v 0), sq_nonneg (v 1), sq_nonneg (v 2)]

theorem comp_normSq {v : Vec} {a : ℝ} (h : normSq v < a ^ 2) (ha : 0 ≤ a) (j : Fin 3) :
    |v j| < a := by
  apply abs_lt_of_sq_lt_sq _ ha
  unfold normSq at h
  fin_cases j <;> simp <;> nlinarith [sq_nonneg (v 0), sq_nonneg (v 1), sq_nonneg (v 2)]

theorem nearest_half {L : Vec} (hL : ∀ i, 0 < L i) (v : Vec) (i : Fin 3) :
    |nearest L v i| ≤ L i / 2 := by
  have h := abs_sub_round (v i / L i)
  have e : nearest L v i = (v i / L i - round (v i / L i)) * L i := by
    unfold nearest
    have := (hL i).ne'
    field_simp
  rw [e, abs_mul, abs_of_pos (hL i)]
  have := hL i
  nlinarith

theorem nearest_lat {L : Vec} (hL : ∀ i, 0 < L i) (v : Vec) (k : IVec) :
    nearest L (v + latVec L k) = nearest L v := by
  funext i
  unfold nearest latVec
  have := (hL i).ne'
  have e : (v + fun i => (k i : ℝ) * L i) i / L i = v i / L i + (k i : ℤ) := by
    simp only [Pi.add_apply]
    field_simp
  rw [e, round_add_intCast]
  simp only [Pi.add_apply]
  push_cast
  ring

theorem half_eq {L a b : ℝ} (hL : 0 < L) (ha : |a| ≤ L / 2) (hb : |b| ≤ L / 2) {k : ℤ}
    (h : a = b + k * L) : a = b ∨ |a| = L / 2 ∧ |b| = L / 2 := by
  have h1 : |(k : ℝ)| * L ≤ L := by
    have : |(k : ℝ) * L| ≤ |a| + |b| := by
      have := abs_sub a b
      rwa [show a - b = k * L by linarith] at this
    rw [abs_mul, abs_of_pos hL] at this
    linarith
  have h2 : |(k : ℝ)| ≤ 1 := by
    by_contra hc
    push Not at hc
    nlinarith
  have h3 : |k| ≤ 1 := by exact_mod_cast h2
  rw [abs_le] at h3 ha hb
  have hk : k = -1 ∨ k = 0 ∨ k = 1 := by omega
  rcases hk with rfl | rfl | rfl
  · right
    push_cast at h
    have e1 : a = -(L / 2) := by linarith
    have e2 : b = L / 2 := by linarith
    rw [e1, e2, abs_neg, abs_of_pos (by linarith)]
    exact ⟨rfl, rfl⟩
  · left
    push_cast at h
    linarith
  · right
    push_cast at h
    have e1 : a = L / 2 := by linarith
    have e2 : b = -(L / 2) := by linarith
    rw [e1, e2, abs_neg, abs_of_pos (by linarith)]
    exact ⟨rfl, rfl⟩

/-- Two equivalent separations, both within half a period: they are equal or
beyond the cutoff. -/
theorem one_eq (ok : y.OK) {u v : Vec} (hu : ∀ i, |u i| ≤ y.box.lengths i / 2)
    (hv : ∀ i, |v i| ≤ y.box.lengths i / 2) {k : IVec} (h : u = v + latVec y.box.lengths k)
    (t t' : ℕ) : y.one t t' u = y.one t t' v := by
  by_cases e : u = v
  · rw [e]
  · have : ∃ i, |u i| = y.box.lengths i / 2 ∧ |v i| = y.box.lengths i / 2 := by
      by_contra hc
      push Not at hc
      refine e (funext fun i => ?_)
      have hi : u i = v i + k i * y.box.lengths i := congrFun h i
      rcases half_eq (ok.box.ok.pos i) (hu i) (hv i) hi with h' | h'
      · exact h'
      · exact absurd h'.2 (hc i h'.1)
    obtain ⟨i, h1, h2⟩ := this
    have far : ∀ x : Vec, |x i| = y.box.lengths i / 2 → y.one t t' x = 0 := by
      intro x hx
      unfold PairSystem.one
      rw [if_neg]
      intro hlt
      have := comp_normSq (hlt.trans_le (ok.cut t t')) ok.rc i
      have := ok.half i
      linarith
    rw [far u h1, far v h2]

theorem one_neg (ok : y.OK) (t t' : ℕ) (v : Vec) : y.one t t' (-v) = -y.one t' t v := by
  unfold PairSystem.one
  rw [normSq_neg, ok.symm t t', ok.fsymm _ t t']
  split
  · exact smul_neg _ _
  · simp

theorem nearest_neg (ok : y.OK) (t t' : ℕ) (v : Vec) :
    y.one t t' (nearest y.box.lengths (-v)) = -y.one t' t (nearest y.box.lengths v) := by
  rw [← one_neg ok]
  have hL := ok.box.ok.pos
  refine one_eq ok (k := fun i => -round ((-v) i / y.box.lengths i) - round (v i / y.box.lengths i)) (nearest_half hL _)
    (fun i => ?_) ?_ t t'
  · rw [Pi.neg_apply, abs_neg]
    exact nearest_half hL _ i
  · funext i
    simp only [nearest, latVec, Pi.add_apply, Pi.neg_apply]
    push_cast
    ring

/-- Positions close to the primary cell. -/
theorem usable_near (ok : y.OK) {p q : Fin N → Vec} {k : Fin N → IVec}
    (h1 : ∀ i, normSq (p i - (q i + latVec y.box.lengths (k i))) ≤ (y.skin / 2) ^ 2)
    (h2 : ∀ i j, -(y.skin / 2) ≤ (q i + latVec y.box.lengths (k i)) j ∧
      (q i + latVec y.box.lengths (k i)) j ≤ y.box.lengths j + y.skin / 2) (i : Fin N) (j : Fin 3) :
    -y.skin ≤ p i j ∧ p i j ≤ y.box.lengths j + y.skin := by
  have hs := ok.skin
  have := normSq_comp (by linarith) (h1 i) j
  rw [abs_le] at this
  simp only [Pi.sub_apply] at this
  have h3 := h2 i j
  constructor <;> linarith

theorem sep_half (ok : y.OK) {p p' : Vec} (h : ∀ j, -y.skin ≤ p j ∧ p j ≤ y.box.lengths j + y.skin)
    (h' : ∀ j, -y.skin ≤ p' j ∧ p' j ≤ y.box.lengths j + y.skin) (j : Fin 3) :
    |y.box.separation p p' j| ≤ y.box.lengths j / 2 := by
  rw [ok.box.ok.sep_eq]
  refine image1_half ?_
  have := ok.thin j
  have a := h j
  have b := h' j
  rw [abs_le]
  constructor <;> linarith

/-- The force computed from the separation returned by the boundary. -/
theorem one_sep (ok : y.OK) {p p' : Vec} (h : ∀ j, -y.skin ≤ p j ∧ p j ≤ y.box.lengths j + y.skin)
    (h' : ∀ j, -y.skin ≤ p' j ∧ p' j ≤ y.box.lengths j + y.skin) (t t' : ℕ) :
    y.one t t' (y.box.separation p p') = y.one t t' (nearest y.box.lengths (p - p')) := by
  have hL := ok.box.ok.pos
  refine one_eq ok (k := fun i => y.box.translate p p' i + round ((p - p') i / y.box.lengths i))
    (sep_half ok h h') (nearest_half hL _) ?_ t t'
  rw [(C24_ortho_separation ok.box p p').1]
  funext i
  simp only [nearest, latVec, Pi.add_apply, Pi.sub_apply]
  push_cast
  ring

/-! ### Sums over pairs -/

/-- Contribution of a pair to the force on atom `i`. -/
noncomputable def PairSystem.contrib (y : PairSystem N) (p : Fin N → Vec) (i : Fin N) (x : ℕ × ℕ) : Vec :=
  if h : x.1 < N ∧ x.2 < N then
    (if (i : ℕ) = x.1 then y.one (y.typ ⟨x.1, h.1⟩) (y.typ ⟨x.2, h.2⟩)
      (y.box.separation (p ⟨x.1, h.1⟩) (p ⟨x.2, h.2⟩)) else 0) -
    (if (i : ℕ) = x.2 then y.one (y.typ ⟨x.1, h.1⟩) (y.typ ⟨x.2, h.2⟩)
      (y.box.separation (p ⟨x.1, h.1⟩) (p ⟨x.2, h.2⟩)) else 0)
  else 0

theorem addPair_eq (ok : y.OK) (p f : Fin N → Vec) (x : ℕ × ℕ) :
    y.addPair p f (some x.1, some x.2) = fun i => f i + y.contrib p i x := by
  funext i
  unfold PairSystem.addPair PairSystem.contrib
  by_cases h : x.1 < N ∧ x.2 < N
  · simp only [dif_pos h]
    have e : y.box.distanceSq (p ⟨x.1, h.1⟩) (p ⟨x.2, h.2⟩) =
        normSq (y.box.separation (p ⟨x.1, h.1⟩) (p ⟨x.2, h.2⟩)) :=
      (C24_ortho_separation ok.box _ _).2
    rw [e]
    have i1 : ∀ (a : ℕ) (ha : a < N), (i : ℕ) = a ↔ i = ⟨a, ha⟩ := fun a ha => by
      rw [Fin.ext_iff]
    simp only [i1 _ h.1, i1 _ h.2]
    by_cases hlt : normSq (y.box.separation (p ⟨x.1, h.1⟩) (p ⟨x.2, h.2⟩)) <
        y.cutSq (y.typ ⟨x.1, h.1⟩) (y.typ ⟨x.2, h.2⟩)
    · have eo : ∀ v, normSq v < y.cutSq (y.typ ⟨x.1, h.1⟩) (y.typ ⟨x.2, h.2⟩) →
          y.one (y.typ ⟨x.1, h.1⟩) (y.typ ⟨x.2, h.2⟩) v =
            y.forceOverR (normSq v) (y.typ ⟨x.1, h.1⟩) (y.typ ⟨x.2, h.2⟩) • v := fun v hv => by
        unfold PairSystem.one
        rw [if_pos hv]
      rw [if_pos hlt, eo _ hlt]
      simp only [Function.update_apply]
      by_cases ha : i = ⟨x.1, h.1⟩
      · by_cases hb : i = ⟨x.2, h.2⟩
        · have hab : (⟨x.2, h.2⟩ : Fin N) = ⟨x.1, h.1⟩ := hb ▸ ha
          simp only [hb, hab, if_true]
          abel
        · simp only [ha, if_true]
          rw [if_neg (ha ▸ hb), if_neg (ha ▸ hb)]
          abel
      · by_cases hb : i = ⟨x.2, h.2⟩
        · have hab : (⟨x.2, h.2⟩ : Fin N) ≠ ⟨x.1, h.1⟩ := hb ▸ ha
          simp only [hb, if_true, if_neg hab]
          abel
        · rw [if_neg hb, if_neg ha, if_neg ha, if_neg hb]
          simp
    · rw [if_neg hlt]
      have eo : y.one (y.typ ⟨x.1, h.1⟩) (y.typ ⟨x.2, h.2⟩)
          (y.box.separation (p ⟨x.1, h.1⟩) (p ⟨x.2, h.2⟩)) = 0 := by
        unfold PairSystem.one
        rw [if_neg hlt]
      rw [eo]
      simp
  · simp only [dif_neg h, add_zero]

theorem pairForces_eq (ok : y.OK) {st : PL} {P : List (ℕ × ℕ)}
    (h : st.pairs = P.map fun x => (some x.1, some x.2)) (p : Fin N → Vec) (i : Fin N) :
    y.pairForces st p i = (P.map (y.contrib p i)).sum := by
  unfold PairSystem.pairForces
  rw [h]
  have key : ∀ (P : List (ℕ × ℕ)) (f : Fin N → Vec),
      (P.map fun x => (some x.1, some x.2)).foldl (y.addPair p) f =
        fun i => f i + (P.map (y.contrib p i)).sum := by
    intro P
    induction P with
    | nil => intro f; simp
    | cons x P ih =>
      intro f
      rw [List.map_cons, List.foldl_cons, addPair_eq ok, ih]
      funext i
      rw [List.map_cons, List.sum_cons, add_assoc]
  rw [key]
  simp

open Classical in
/-- The sum over the listed pairs is the sum over all unmasked pairs, if the
unlisted ones are beyond the cutoff. -/
theorem pairForces_field (ok : y.OK) {st : PL} {P : List (ℕ × ℕ)} {p : Fin N → Vec}
    (h : st.pairs = P.map fun x => (some x.1, some x.2)) (hnd : P.Nodup)
    (hmem : ∀ x ∈ P, x.1 < N ∧ x.2 < N ∧ x.1 < x.2 ∧ ¬ y.masked x.1 x.2)
    (hp : ∀ i j, -y.skin ≤ p i j ∧ p i j ≤ y.box.lengths j + y.skin)
    (hfar : ∀ i j : Fin N, i < j → ¬ y.masked i j → ((i : ℕ), (j : ℕ)) ∉ P →
      y.one (y.typ i) (y.typ j) (nearest y.box.lengths (p i - p j)) = 0) (i : Fin N) :
    y.pairForces st p i + y.other p i = y.field p i := by
  unfold PairSystem.field
  congr 1
  rw [pairForces_eq ok h, ← List.sum_toFinset _ hnd]
  -- the force between two atoms
  set f : Fin N → Fin N → Vec := fun i j =>
    y.one (y.typ i) (y.typ j) (nearest y.box.lengths (p i - p j)) with hf
  have hneg : ∀ i j, f i j = -f j i := fun i j => by
    simp only [hf]
    rw [← nearest_neg ok, neg_sub]
  -- pairs as pairs of elements of `Fin N`
  have e1 : ∑ x ∈ P.toFinset, y.contrib p i x =
      ∑ x ∈ (Finset.univ : Finset (Fin N × Fin N)).filter fun x => ((x.1 : ℕ), (x.2 : ℕ)) ∈ P,
        ((if i = x.1 then f x.1 x.2 else 0) - if i = x.2 then f x.1 x.2 else 0) := by
    symm
    refine Finset.sum_bij (fun x _ => ((x.1 : ℕ), (x.2 : ℕ))) ?_ ?_ ?_ ?_
    · intro x hx
      rw [Finset.mem_filter] at hx
      exact List.mem_toFinset.2 hx.2
    · rintro ⟨a, b⟩ _ ⟨a', b'⟩ _ hab
      simp only [Prod.mk.injEq] at hab
      exact Prod.ext (Fin.ext hab.1) (Fin.ext hab.2)
    · rintro ⟨a, b⟩ hab
      rw [List.mem_toFinset] at hab
      obtain ⟨h1, h2, _⟩ := hmem _ hab
      exact ⟨(⟨a, h1⟩, ⟨b, h2⟩), by simpa using hab, rfl⟩
    · rintro ⟨a, b⟩ _
      unfold PairSystem.contrib
      rw [dif_pos ⟨a.2, b.2⟩]
      simp only [hf, ← one_sep ok (hp a) (hp b), Fin.ext_iff]
  rw [e1]
  have e2 : ∑ x ∈ (Finset.univ : Finset (Fin N × Fin N)).filter
        fun x => ((x.1 : ℕ), (x.2 : ℕ)) ∈ P,
        ((if i = x.1 then f x.1 x.2 else 0) - if i = x.2 then f x.1 x.2 else 0) =
      ∑ a : Fin N, ∑ b : Fin N, if a < b ∧ ¬ y.masked a b then
        ((if i = a then f a b else 0) - if i = b then f a b else 0) else 0 := by
    rw [Finset.sum_filter, Fintype.sum_prod_type]
    refine Finset.sum_congr rfl fun a _ => Finset.sum_congr rfl fun b _ => ?_
    by_cases hP : ((a : ℕ), (b : ℕ)) ∈ P
    · obtain ⟨_, _, h3, h4⟩ := hmem _ hP
      have hab : a < b ∧ ¬ y.masked a b := ⟨Fin.lt_def.2 h3, h4⟩
      rw [if_pos hP, if_pos hab]
    · rw [if_neg hP]
      by_cases hab : a < b ∧ ¬ y.masked a b
      · rw [if_pos hab]
        have : f a b = 0 := hfar a b hab.1 hab.2 hP
        rw [this]
        simp
      · rw [if_neg hab]
  rw [e2]
  have e3 : ∀ a b : Fin N, (if a < b ∧ ¬ y.masked a b then
        ((if i = a then f a b else 0) - if i = b then f a b else 0) else 0) =
      (if i = a then (if i < b ∧ ¬ y.masked i b then f i b else 0) else 0) +
      (if i = b then (if a < i ∧ ¬ y.masked i a then f i a else 0) else 0) := by
    intro a b
    by_cases ha : i = a
    · subst ha
      by_cases hb : i = b
      · subst hb
        simp
      · simp [hb]
    · by_cases hb : i = b
      · subst hb
        rw [if_neg ha, if_neg ha, if_pos rfl, if_pos rfl, ok.mask i a, hneg i a]
        simp
      · simp [ha, hb]
  simp only [e3, Finset.sum_add_distrib]
  rw [Finset.sum_comm (f := fun a b => if i = a then (if i < b ∧ ¬ y.masked i b then f i b else 0) else 0)]
  simp only [Finset.sum_ite_eq, Finset.mem_univ, if_true]
  rw [← Finset.sum_add_distrib]
  refine Finset.sum_congr rfl fun j _ => ?_
  rcases lt_trichotomy i j with h | h | h
  · simp [h, h.ne, not_lt.2 h.le, hf]
  · simp [h]
  · simp [h, h.ne', not_lt.2 h.le, hf]

/-! ### The environment is exact -/

/-- A usable list. -/
theorem usable_list (ok : y.OK) {l : Option PL} {p : Fin N → Vec} (h : y.usable l p) :
    ∃ (st : PL) (P : List (ℕ × ℕ)) (q : Fin N → Vec) (k : Fin N → IVec), l = some st ∧
      q ∈ y.cell ∧
      st.builds ≠ 0 ∧ st.pairs = P.map (fun x => (some x.1, some x.2)) ∧
      ExactlyOnce (Finset.range N)
        (fun i j => ¬ y.masked i j ∧ y.box.distanceSq (byId q i) (byId q j) < (y.rc + y.skin) ^ 2) P ∧
      (∀ ip, (0 ≤ ip ∧ ip < st.n1 ∨ st.t1 < ip ∧ ip ≤ y.atomCap - 1) →
        ∃ i : Fin N, st.atom1 ip = some (i : ℕ) ∧ st.old ip = q i) ∧
      (∀ i, normSq (p i - (q i + latVec y.box.lengths (k i))) ≤ (y.skin / 2) ^ 2) ∧
      ∀ i j, -y.skin ≤ p i j ∧ p i j ≤ y.box.lengths j + y.skin := by
  obtain ⟨l0, q, k, hq, rfl, h1, h2, _⟩ := h
  obtain ⟨st, P, e, hb, hP, hex, hat, _⟩ := build_ok ok hq l0
  exact ⟨st, P, q, k, e, hq, hb, hP, hex, hat, h1, usable_near ok h1 h2⟩

theorem dist_le (ok : y.OK) {r r' : Vec} {a : ℝ} (hr : ∀ j, |r j - r' j| ≤ 3 / 2 * y.box.lengths j)
    {k : IVec} (h : normSq (r - (r' + latVec y.box.lengths k)) ≤ a) :
    y.box.distanceSq r r' ≤ a := by
  have hL := ok.box.ok.pos
  rw [(C24_ortho_separation ok.box r r').2]
  refine le_trans ?_ h
  have e := (C24_ortho_separation ok.box r r').1
  have key : ∀ j, (y.box.separation r r' j) ^ 2 ≤ ((r - (r' + latVec y.box.lengths k)) j) ^ 2 := by
    intro j
    have hh : |y.box.separation r r' j| ≤ y.box.lengths j / 2 := by
      rw [ok.box.ok.sep_eq]
      exact image1_half (hr j)
    have ej : y.box.separation r r' j = r j - r' j + y.box.translate r r' j * y.box.lengths j := by
      rw [e]
      simp only [latVec, Pi.sub_apply, Pi.add_apply]
      ring
    have := sq_min_of_half (hL j) hh (-y.box.translate r r' j - k j)
    refine this.trans (le_of_eq ?_)
    rw [ej]
    simp only [latVec, Pi.sub_apply, Pi.add_apply]
    push_cast
    ring
  unfold normSq
  have := key 0
  have := key 1
  have := key 2
  linarith

theorem near_diff (ok : y.OK) {r r' : Vec}
    (h : ∀ j, -y.skin ≤ r j ∧ r j ≤ y.box.lengths j + y.skin) (h' : InCell y.box.lengths r')
    (j : Fin 3) : |r j - r' j| ≤ 3 / 2 * y.box.lengths j := by
  have := ok.thin j
  have := ok.skin
  have a := h j
  have b := h' j
  rw [abs_le]
  constructor <;> linarith

/-- The sum of two vectors. -/
theorem normSq_add_lt {u v : Vec} {a b : ℝ} (ha : 0 ≤ a) (hb : 0 < b) (hu : normSq u ≤ a ^ 2)
    (hv : normSq v < b ^ 2) : normSq (u + v) < (a + b) ^ 2 := by
  have hc : (u 0 * v 0 + u 1 * v 1 + u 2 * v 2) ^ 2 ≤ normSq u * normSq v := by
    unfold normSq
    nlinarith [sq_nonneg (u 0 * v 1 - u 1 * v 0), sq_nonneg (u 0 * v 2 - u 2 * v 0),
      sq_nonneg (u 1 * v 2 - u 2 * v 1)]
  have h0 : 0 ≤ normSq v := by unfold normSq; positivity
  have h1 : normSq u * normSq v ≤ a ^ 2 * b ^ 2 := by
    have : normSq u * normSq v ≤ a ^ 2 * normSq v := mul_le_mul_of_nonneg_right hu h0
    have : a ^ 2 * normSq v ≤ a ^ 2 * b ^ 2 := mul_le_mul_of_nonneg_left hv.le (sq_nonneg a)
    linarith
  have h2 : u 0 * v 0 + u 1 * v 1 + u 2 * v 2 ≤ a * b := by
    apply le_of_sq_le_sq _ (by positivity)
    rw [mul_pow]
    exact hc.trans h1
  have e : normSq (u + v) = normSq u + normSq v + 2 * (u 0 * v 0 + u 1 * v 1 + u 2 * v 2) := by
    unfold normSq
    simp only [Pi.add_apply]
    ring
  rw [e]
  nlinarith

theorem usable_current (ok : y.OK) {l : Option PL} {p : Fin N → Vec} (h : y.usable l p) :
    y.world.isCurrent l p = true := by
  obtain ⟨st, P, q, k, rfl, hq, hb, hP, hex, hat, h1, h2⟩ := usable_list ok h
  simp only [PairSystem.world, decide_eq_true_eq]
  refine ⟨hb, fun ip hip => ?_⟩
  obtain ⟨i, e1, e2⟩ := hat ip hip
  refine ⟨i, e1, ?_⟩
  rw [e2, byId_val]
  refine (dist_le ok (near_diff ok (h2 i) (hq.1 i)) (h1 i)).trans (le_of_eq ?_)
  ring

/-- A usable list contains every pair of atoms closer than the cutoff, and only
pairs that are not masked. -/
theorem usable_pairs (ok : y.OK) {l : Option PL} {p : Fin N → Vec} (h : y.usable l p) :
    ∃ (st : PL) (P : List (ℕ × ℕ)), l = some st ∧
      st.pairs = P.map (fun x => (some x.1, some x.2)) ∧ P.Nodup ∧
      (∀ x ∈ P, x.1 < N ∧ x.2 < N ∧ x.1 < x.2 ∧ ¬ y.masked x.1 x.2) ∧
      (∀ i j, -y.skin ≤ p i j ∧ p i j ≤ y.box.lengths j + y.skin) ∧
      ∀ i j : Fin N, i < j → ¬ y.masked i j → ((i : ℕ), (j : ℕ)) ∉ P →
        ¬ normSq (nearest y.box.lengths (p i - p j)) < y.cutSq (y.typ i) (y.typ j) := by
  obtain ⟨st, P, q, k, rfl, hq, hb, hP, hex, hat, h1, h2⟩ := usable_list ok h
  refine ⟨st, P, rfl, hP, hex.1, ?_, h2, ?_⟩
  · rintro ⟨a, b⟩ hab
    obtain ⟨ha, hb', hlt, hm, _⟩ := (hex.2 a b).1 hab
    exact ⟨Finset.mem_range.1 ha, Finset.mem_range.1 hb', hlt, hm⟩
  · intro i j hij hm hP' hlt
    apply hP'
    rw [hex.2]
    refine ⟨Finset.mem_range.2 i.2, Finset.mem_range.2 j.2, Fin.lt_def.1 hij, hm, ?_⟩
    rw [byId_val, byId_val]
    have hlt' := hlt.trans_le (ok.cut _ _)
    have hrc : 0 < y.rc := by
      have h0 : 0 ≤ normSq (nearest y.box.lengths (p i - p j)) := by unfold normSq; positivity
      have := ok.rc
      rcases this.eq_or_lt with h | h
      · rw [← h] at hlt'
        norm_num at hlt'
        linarith
      · exact h
    have hs := ok.skin
    -- the distance of the recorded positions
    set u := p i - (q i + latVec y.box.lengths (k i)) with hu
    set v := p j - (q j + latVec y.box.lengths (k j)) with hv
    set c := nearest y.box.lengths (p i - p j) with hc
    have n1 : normSq (-u + c) < (y.skin / 2 + y.rc) ^ 2 :=
      normSq_add_lt (by linarith) hrc (by rw [normSq_neg]; exact h1 i) hlt'
    have n2 : normSq (v + (-u + c)) < (y.skin / 2 + (y.skin / 2 + y.rc)) ^ 2 :=
      normSq_add_lt (by linarith) (by linarith) (h1 j) n1
    have ed : v + (-u + c) = q i - (q j + latVec y.box.lengths
        (fun a => k j a - k i a + round ((p i - p j) a / y.box.lengths a))) := by
      funext a
      simp only [hu, hv, hc, nearest, latVec, Pi.add_apply, Pi.sub_apply, Pi.neg_apply]
      push_cast
      ring
    rw [ed] at n2
    have hL := ok.box.ok.pos
    refine lt_of_le_of_lt (dist_le ok (fun a => ?_) le_rfl) (n2.trans_eq ?_)
    · have a1 := hq.1 i a
      have a2 := hq.1 j a
      have := hL a
      rw [abs_le]
      constructor <;> linarith
    · congr 1
      ring

theorem usable_forces (ok : y.OK) {l : Option PL} {p : Fin N → Vec} (h : y.usable l p) :
    y.world.forces l p = y.field p := by
  obtain ⟨st, P, rfl, hP, hnd, hmem, hnear, hfar⟩ := usable_pairs ok h
  funext i
  simp only [PairSystem.world]
  refine pairForces_field ok hP hnd hmem hnear (fun i j hij hm hP' => ?_) i
  unfold PairSystem.one
  rw [if_neg (hfar i j hij hm hP')]

theorem shift_lattice (ok : y.OK) (r : Vec) : ∃ k : IVec, y.box.shift r = r + latVec y.box.lengths k := by
  refine ⟨fun i => -(shift1 0 (y.box.lengths i) (y.box.lengths i) (r i)).2, ?_⟩
  funext i
  simp only [Ortho.shift, ok.box.ok.shift1_eq, latVec, Pi.add_apply]
  have := shift1_spec (y.box.lengths i) (r i)
  push_cast
  linarith

theorem latVec_add (L : Vec) (k k' : IVec) : latVec L (k + k') = latVec L k + latVec L k' := by
  funext i
  simp [latVec, add_mul]

theorem usable_wrap (ok : y.OK) {l : Option PL} {p : Fin N → Vec} (h : y.usable l p) :
    y.usable l fun i => y.box.shift (p i) := by
  obtain ⟨l0, q, k, hq, e, h1, h2, h3⟩ := h
  have hn := usable_near ok h1 h2
  choose m hm using fun i => shift_lattice ok (p i)
  have hcell : ∀ i, InCell y.box.lengths (y.box.shift (p i)) := fun i =>
    (C23_ortho_shift ok.box (p i) fun j => by
      have := ok.thin j
      have := ok.skin
      have := hn i j
      constructor <;> linarith).1
  have h1' : ∀ i, normSq (y.box.shift (p i) - (q i + latVec y.box.lengths (k i + m i))) ≤
      (y.skin / 2) ^ 2 := by
    intro i
    have : y.box.shift (p i) - (q i + latVec y.box.lengths (k i + m i)) =
        p i - (q i + latVec y.box.lengths (k i)) := by
      rw [hm, latVec_add]
      abel
    rw [this]
    exact h1 i
  refine ⟨l0, q, fun i => k i + m i, hq, e, h1', fun i j => ?_, ?_⟩
  swap
  · have : (fun i => y.box.shift (y.box.shift (p i))) = fun i => y.box.shift (p i) := by
      funext i
      exact congrArg Prod.fst (C23_ortho_shift_fix ok.box (y.box.shift (p i)) 0 (hcell i))
    rw [this]
    exact h3
  have hs := ok.skin
  have a := normSq_comp (by linarith) (h1' i) j
  have b := hcell i j
  rw [abs_le] at a
  simp only [Pi.sub_apply] at a
  constructor <;> linarith

theorem usable_build (ok : y.OK) (l : Option PL) {q : Fin N → Vec} (hq : q ∈ y.cell) :
    y.usable (y.build l q) q := by
  have e0 : latVec y.box.lengths 0 = 0 := by funext j; simp [latVec]
  have hs := ok.skin
  refine ⟨l, q, fun _ => 0, hq, rfl, fun i => ?_, fun i j => ?_, ?_⟩
  on_goal 3 =>
    have : (fun i => y.box.shift (q i)) = q := by
      funext i
      exact congrArg Prod.fst (C23_ortho_shift_fix ok.box (q i) 0 (hq.1 i))
    rw [this]
    exact hq
  · rw [e0]
    have : normSq (q i - (q i + 0)) = 0 := by simp [normSq]
    rw [this]
    positivity
  · rw [e0]
    have := hq.1 i j
    simp only [add_zero]
    constructor <;> linarith

theorem usable_move (ok : y.OK) {ρ : ℝ} (hρ : ∀ j, y.skin + ρ < y.box.lengths j) {l : Option PL}
    {p z d : Fin N → Vec} (h : y.usable l p) (hz : Image (lattice y.box.lengths) z p)
    (had : y.adm ρ z d) :
    (y.world.isCurrent l (fun i => p i + d i) = true → y.usable l fun i => p i + d i) ∧
    (fun i => y.box.shift (p i + d i)) ∈ y.cell := by
  have hL := ok.box.ok.pos
  have hs := ok.skin
  have hcell : (fun i => y.box.shift (p i + d i)) ∈ y.cell := by
    obtain ⟨l0, q, k, hq, e, h1, h2, h3⟩ := h
    have hn := usable_near ok h1 h2
    have hin : ∀ i, InCell y.box.lengths (y.box.shift (p i + d i)) := fun i =>
      (C23_ortho_shift ok.box _ fun j => by
        have a1 := hρ j
        have a2 := hn i j
        have a3 := had.1 i j
        rw [abs_le] at a3
        simp only [Pi.add_apply]
        constructor <;> linarith).1
    refine ⟨hin, had.2 _ (fun i => ?_) hin⟩
    obtain ⟨m, hm⟩ := shift_lattice ok (p i + d i)
    rw [hm]
    have : p i + d i + latVec y.box.lengths m - (z i + d i) =
        (p i - z i) + latVec y.box.lengths m := by abel
    rw [this]
    exact (lattice _).add_mem (hz i) ⟨m, rfl⟩
  refine ⟨?_, hcell⟩
  · intro hcur
    obtain ⟨l0, q, k, hq, e, h1, h2, h3⟩ := h
    obtain ⟨st, P, e', _, _, _, _, hrec⟩ := build_ok ok hq l0
    refine ⟨l0, q, k, hq, e, fun i => ?_, h2, hcell⟩
    rw [e, e'] at hcur
    simp only [PairSystem.world, decide_eq_true_eq] at hcur
    obtain ⟨ip, hip, ea, eo⟩ := hrec i
    obtain ⟨a, ea', hle⟩ := hcur.2 ip hip
    rw [ea] at ea'
    cases ea'
    rw [eo, byId_val, (C24_ortho_separation ok.box _ _).2, (C24_ortho_separation ok.box _ _).1] at hle
    set t := y.box.translate (p i + d i) (q i) with ht
    have hle' : normSq (p i + d i - q i + latVec y.box.lengths t) ≤ (y.skin / 2) ^ 2 := by
      rw [show p i + d i - q i + latVec y.box.lengths t =
        p i + d i + latVec y.box.lengths t - q i by abel]
      exact hle.trans (le_of_eq (by ring))
    -- the translation is the same as before
    have hk : k i = -t := by
      funext j
      have a1 := normSq_comp (by linarith) (h1 i) j
      have a2 := normSq_comp (by linarith) hle' j
      have a3 := had.1 i j
      have a4 := hρ j
      have a5 := hL j
      simp only [latVec, Pi.sub_apply, Pi.add_apply] at a1 a2
      rw [abs_le] at a1 a2 a3
      have a6 : |((k i j + t j : ℤ) : ℝ)| < 1 := by
        rw [abs_lt]
        push_cast
        constructor
        · by_contra hc
          push Not at hc
          nlinarith
        · by_contra hc
          push Not at hc
          nlinarith
      have a7 : |k i j + t j| < 1 := by exact_mod_cast a6
      rw [Int.abs_lt_one_iff] at a7
      simp only [Pi.neg_apply]
      omega
    have : p i + d i - (q i + latVec y.box.lengths (k i)) =
        p i + d i - q i + latVec y.box.lengths t := by
      rw [hk]
      funext j
      simp only [latVec, Pi.sub_apply, Pi.add_apply, Pi.neg_apply]
      push_cast
      ring
    rw [this]
    exact hle'

theorem field_periodic (ok : y.OK) {p q : Fin N → Vec} (h : Image (lattice y.box.lengths) p q) :
    y.field q = y.field p := by
  funext i
  unfold PairSystem.field
  rw [ok.other p q h]
  congr 1
  refine Finset.sum_congr rfl fun j _ => ?_
  obtain ⟨ki, hi⟩ := h i
  obtain ⟨kj, hj⟩ := h j
  have : q i - q j = p i - p j + latVec y.box.lengths (ki - kj) := by
    have e : latVec y.box.lengths (ki - kj) = latVec y.box.lengths ki - latVec y.box.lengths kj := by
      funext a
      simp [latVec, sub_mul]
    rw [e, ← hi, ← hj]
    abel
  rw [this, nearest_lat ok.box.ok.pos]

/-- **The environment is exact**: with the pair list as it is built and rebuilt by
the program, the forces are those of all pairs at their nearest images. -/
theorem PairSystem.OK.exact (ok : y.OK) {ρ : ℝ} (hρ : ∀ j, y.skin + ρ < y.box.lengths j) :
    y.world.Exact (lattice y.box.lengths) y.field y.cell y.usable (y.adm ρ) where
  nodup := List.nodup_finRange N
  all := List.mem_finRange
  types := ok.types
  shift r := by
    obtain ⟨k, hk⟩ := shift_lattice ok r
    exact ⟨k, by
      change y.box.shift r - r = _
      rw [hk]; abel⟩
  periodic _ _ h := field_periodic ok h
  current _ _ h := usable_current ok h
  forces _ _ h := usable_forces ok h
  wrap _ _ h := usable_wrap ok h
  ready _ _ h := by
    obtain ⟨_, _, _, _, _, _, _, h⟩ := h
    exact h
  build l _ hq := usable_build ok l hq
  move _ _ _ _ h hz had := usable_move ok hρ h hz had

end Verif.Integrate
