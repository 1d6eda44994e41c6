/-
Invariants of `initializeSpeciesData`.
-/
import Verif.McMem.Model
import Verif.Species.Valid
import Mathlib.Algebra.BigOperators.Group.Finset.Basic
import Mathlib.Algebra.BigOperators.Intervals

set_option autoImplicit false

namespace Verif.McMem

open Verif.Cpp
open Verif.Cpp.Out
open Verif.Species (Sp Part Grp nullGrp PartOK)
open Finset (range)

/-- What the program requires of a list of species. -/
structure Valid (sps : List Spec) : Prop where
  nonempty : 0 < sps.length
  id : ∀ (i : ℕ) (s : Spec), sps[i]? = some s → s.id = i
  capacity : ∀ s ∈ sps, 0 < s.capacity
  nAtom : ∀ s ∈ sps, 0 < s.sp.nAtom
  part : ∀ s ∈ sps, ∀ k, PartOK k.size s.sp.nAtom (partOf s.sp k)

/-- Atoms bonded to atom `i` of a molecule, in the order of the bonds. -/
def partners (gs : List Grp) (i : ℤ) : List ℤ :=
  gs.flatMap fun g => match g.atoms with
    | [x, y] => (if x = i then [y] else []) ++ (if y = i then [x] else [])
    | _ => []

/-- No atom has two bonds with the same partner, or more than four partners. -/
def Simple (s : Spec) : Prop :=
  ∀ i, (partners s.sp.bonds.grps i).Nodup ∧ (partners s.sp.bonds.grps i).length ≤ 4

/-- Molecules below `nm` have consecutive blocks of atoms, which end at `na`;
the atoms refer to their molecule and have the types of its species. -/
structure AtomsOK (sps : List Spec) (mem : Mem) (nm na : ℕ) : Prop where
  total : na = ∑ j ∈ range nm, (mem.mol j).nAtom
  first : ∀ M < nm, (mem.mol M).firstAtom = ∑ j ∈ range M, (mem.mol j).nAtom
  atoms : ∀ M < nm, ∃ s, sps[(mem.mol M).species]? = some s ∧
    (mem.mol M).nAtom = s.sp.nAtom.toNat ∧
    ∀ i < (mem.mol M).nAtom,
      (mem.atom ((mem.mol M).firstAtom + i)).mol = some M ∧
      (mem.atom ((mem.mol M).firstAtom + i)).typeId = s.sp.types.getD i (-1)

/-- Molecules below `nm` have consecutive blocks of groups, which end at `np`;
the groups refer to atoms of the molecule as those of its species. -/
structure GrpsOK (k : Kind) (sps : List Spec) (mem : Mem) (nm np : ℕ) : Prop where
  total : np = ∑ j ∈ range nm, (mem.mol j).num k
  first : ∀ M < nm, (mem.mol M).first k = some (∑ j ∈ range M, (mem.mol j).num k)
  grps : ∀ M < nm, ∃ s, sps[(mem.mol M).species]? = some s ∧
    (mem.mol M).num k = (partOf s.sp k).grps.length ∧
    ∀ (i : ℕ) (g : Grp), (partOf s.sp k).grps[i]? = some g →
      (mem.grp k ((∑ j ∈ range M, (mem.mol j).num k) + i)).atoms =
        g.atoms.map (fun a => (mem.mol M).firstAtom + a.toNat) ∧
      (mem.grp k ((∑ j ∈ range M, (mem.mol j).num k) + i)).typeId = g.typeId

/-! ### Atoms -/

/-- The array of atoms after the loop over `n` atoms starting at `a`. -/
def wrAtoms (f : ℕ → AtomRec) (m : ℕ) (types : List ℤ) (a n : ℕ) : ℕ → AtomRec := fun j =>
  if a ≤ j ∧ j < a + n then { f j with mol := some m, typeId := types.getD (j - a) (-1) } else f j

theorem wrAtoms_out (f : ℕ → AtomRec) (m : ℕ) (types : List ℤ) (a n j : ℕ)
    (h : j < a ∨ a + n ≤ j) : wrAtoms f m types a n j = f j := by
  unfold wrAtoms; rw [if_neg (by omega)]

theorem wrAtoms_in (f : ℕ → AtomRec) (m : ℕ) (types : List ℤ) (a n j : ℕ) (h : j < n) :
    wrAtoms f m types a n (a + j) =
      { f (a + j) with mol := some m, typeId := types.getD j (-1) } := by
  unfold wrAtoms; rw [if_pos (by omega), Nat.add_sub_cancel_left]

theorem atomLoop (m : ℕ) (types : List ℤ) (n : ℕ) (mem : Mem) (a : ℕ) (h : a + n ≤ mem.nAtom) :
    loop (atomStep m types) (List.range n) (mem, a) =
      ok ({ mem with atom := wrAtoms mem.atom m types a n }, a + n) := by
  induction n with
  | zero =>
    have : wrAtoms mem.atom m types a 0 = mem.atom := by
      funext j; exact wrAtoms_out _ _ _ _ _ _ (by omega)
    rw [this]; rfl
  | succ n ih =>
    rw [List.range_succ, loop_append, ih (by omega), ok_bind]
    simp only [loop, atomStep]
    rw [require_true (show a + n < mem.nAtom by omega), ok_bind, ok_bind]
    congr 2
    simp only [Mem.setAtom]
    congr 1
    funext j
    by_cases hj : j = a + n
    · subst hj
      rw [Function.update_self, wrAtoms_in _ _ _ a (n + 1) n (by omega),
        wrAtoms_out _ _ _ a n (a + n) (by omega)]
    · rw [Function.update_of_ne hj]
      unfold wrAtoms
      by_cases hc : a ≤ j ∧ j < a + n
      · rw [if_pos hc, if_pos (by omega)]
      · rw [if_neg hc, if_neg (by omega)]

/-- Everything not written by `initMols` is unchanged. -/
structure SameRest (mem mem' : Mem) : Prop where
  nMol : mem'.nMol = mem.nMol
  nAtom : mem'.nAtom = mem.nAtom
  nGrp : mem'.nGrp = mem.nGrp
  grp : mem'.grp = mem.grp
  mask : ∀ a, (mem'.atom a).mask = (mem.atom a).mask
  active : ∀ a, (mem'.atom a).active = (mem.atom a).active

theorem SameRest.refl (mem : Mem) : SameRest mem mem := ⟨rfl, rfl, rfl, rfl, fun _ => rfl, fun _ => rfl⟩

theorem SameRest.trans {a b c : Mem} (h : SameRest a b) (h' : SameRest b c) : SameRest a c :=
  ⟨h'.nMol.trans h.nMol, h'.nAtom.trans h.nAtom, h'.nGrp.trans h.nGrp, h'.grp.trans h.grp,
    fun x => (h'.mask x).trans (h.mask x), fun x => (h'.active x).trans (h.active x)⟩

theorem sum_congr_lt {n m : ℕ} (hn : n ≤ m) {f g : ℕ → ℕ} (h : ∀ j < m, f j = g j) :
    ∑ j ∈ range n, f j = ∑ j ∈ range n, g j :=
  Finset.sum_congr rfl fun j hj => h j (by have := Finset.mem_range.mp hj; omega)

theorem sum_le_sum_lt {n m : ℕ} (hn : n < m) (f : ℕ → ℕ) :
    (∑ j ∈ range n, f j) + f n ≤ ∑ j ∈ range m, f j := by
  rw [← Finset.sum_range_succ]
  exact Finset.sum_le_sum_of_subset (by
    intro x hx; simp only [Finset.mem_range] at hx ⊢; omega)

theorem molStep_ok {sps : List Spec} {s : Spec} {k : ℕ} (hk : sps[k]? = some s) {mem : Mem}
    {nm na : ℕ} (h : AtomsOK sps mem nm na) (hm : nm < mem.nMol)
    (ha : na + s.sp.nAtom.toNat ≤ mem.nAtom) (i : ℕ) :
    ∃ mem', molStep k s.sp (mem, nm, na) i = ok (mem', nm + 1, na + s.sp.nAtom.toNat) ∧
      AtomsOK sps mem' (nm + 1) (na + s.sp.nAtom.toNat) ∧ SameRest mem mem' ∧
      (∀ M < nm, mem'.mol M = mem.mol M) ∧
      (mem'.mol nm).species = k ∧ (mem'.mol nm).id = i := by
  simp only [molStep]
  rw [require_true hm, ok_bind, atomLoop _ _ _ _ _ (by simpa [Mem.setMol] using ha), ok_bind]
  refine ⟨_, rfl, ?_, ?_, ?_, ?_, ?_⟩
  · set r : MolRec := { mem.mol nm with
      species := k, id := i, nAtom := s.sp.nAtom.toNat, firstAtom := na } with hr
    have hlt : ∀ j < nm, Function.update mem.mol nm r j = mem.mol j := fun j hj =>
      Function.update_of_ne (by omega) _ _
    constructor
    · simp only [Mem.setMol]
      rw [Finset.sum_range_succ, Function.update_self]
      rw [sum_congr_lt (m := nm) le_rfl (g := fun j => (mem.mol j).nAtom)
        (fun j hj => by rw [hlt j hj])]
      rw [h.total]
    · intro M hM
      simp only [Mem.setMol]
      rw [sum_congr_lt (n := M) (m := nm) (by omega) (g := fun j => (mem.mol j).nAtom)
        (fun j hj => by rw [hlt j hj])]
      rcases Nat.lt_succ_iff_lt_or_eq.mp hM with hM | rfl
      · rw [hlt M hM]; exact h.first M hM
      · rw [Function.update_self]; exact h.total
    · intro M hM
      simp only [Mem.setMol]
      rcases Nat.lt_succ_iff_lt_or_eq.mp hM with hM | rfl
      · rw [hlt M hM]
        obtain ⟨s', h1, h2, h3⟩ := h.atoms M hM
        refine ⟨s', h1, h2, fun j hj => ?_⟩
        have hle : (mem.mol M).firstAtom + j < na := by
          rw [h.first M hM, h.total]
          have := sum_le_sum_lt hM fun j => (mem.mol j).nAtom
          omega
        rw [wrAtoms_out _ _ _ _ _ _ (Or.inl hle)]
        exact h3 j hj
      · rw [Function.update_self]
        refine ⟨s, hk, rfl, fun j hj => ?_⟩
        have hj' : j < s.sp.nAtom.toNat := hj
        simp only [hr]
        rw [wrAtoms_in _ _ _ _ _ _ hj']
        exact ⟨rfl, rfl⟩
  · refine ⟨rfl, rfl, rfl, rfl, fun a => ?_, fun a => ?_⟩ <;>
    · simp only [Mem.setMol, wrAtoms]
      split <;> rfl
  · intro M hM
    simp only [Mem.setMol]
    exact Function.update_of_ne (by omega) _ _
  · simp [Mem.setMol]
  · simp [Mem.setMol]

/-- All molecules of one species. -/
theorem initMols_ok {sps : List Spec} {sl : Slot} (hk : sps[sl.idx]? = some sl.s) {mem : Mem}
    (h : AtomsOK sps mem sl.fm sl.fa) (hm : sl.fm + sl.s.capacity.toNat ≤ mem.nMol)
    (ha : sl.fa + sl.s.capacity.toNat * sl.s.sp.nAtom.toNat ≤ mem.nAtom) :
    ∃ mem', initMols mem sl = ok mem' ∧
      AtomsOK sps mem' (sl.fm + sl.s.capacity.toNat)
        (sl.fa + sl.s.capacity.toNat * sl.s.sp.nAtom.toNat) ∧ SameRest mem mem' ∧
      (∀ M < sl.fm, mem'.mol M = mem.mol M) ∧
      ∀ i < sl.s.capacity.toNat, (mem'.mol (sl.fm + i)).species = sl.idx ∧
        (mem'.mol (sl.fm + i)).id = i := by
  obtain ⟨⟨mem', nm, na⟩, hl, h1, h2, h3, h4, h5, h6⟩ := loop_range_ok
    (P := fun (i : ℕ) (st : Mem × ℕ × ℕ) => st.2.1 = sl.fm + i ∧
      st.2.2 = sl.fa + i * sl.s.sp.nAtom.toNat ∧
      AtomsOK sps st.1 st.2.1 st.2.2 ∧ SameRest mem st.1 ∧
      (∀ M < sl.fm, st.1.mol M = mem.mol M) ∧
      ∀ j < i, (st.1.mol (sl.fm + j)).species = sl.idx ∧ (st.1.mol (sl.fm + j)).id = j)
    (molStep sl.idx sl.s.sp) sl.s.capacity.toNat (mem, sl.fm, sl.fa)
    ⟨rfl, by simp, h, SameRest.refl _, fun _ _ => rfl, by simp⟩ (by
      rintro i hi ⟨mem1, nm, na⟩ ⟨h1, h2, h3, h4, h5, h6⟩
      simp only at h1 h2 h3 h4 h5 h6
      have hmul : i * sl.s.sp.nAtom.toNat + sl.s.sp.nAtom.toNat ≤
          sl.s.capacity.toNat * sl.s.sp.nAtom.toNat := by
        rw [← Nat.succ_mul]; exact Nat.mul_le_mul_right _ hi
      obtain ⟨mem2, g1, g2, g3, g4, g5, g6⟩ := molStep_ok hk h3 (by rw [h4.nMol]; omega)
        (by rw [h4.nAtom]; omega) i
      refine ⟨_, g1, ?_, ?_, g2, h4.trans g3, ?_, ?_⟩
      · simp only []; omega
      · simp only []; rw [Nat.succ_mul]; omega
      · intro M hM
        rw [← h5 M hM]
        exact g4 M (by omega)
      · intro j hj
        rcases Nat.lt_succ_iff_lt_or_eq.mp hj with hj | rfl
        · simp only []
          rw [g4 (sl.fm + j) (by omega)]
          exact h6 j hj
        · simp only []
          rw [← h1]; exact ⟨g5, g6⟩)
  simp only at h1 h2 h3 h4 h5 h6
  subst h1 h2
  exact ⟨mem', by rw [initMols, hl, ok_bind], h3, h4, h5, h6⟩

/-! ### Groups -/

/-- The pointer does not depend on earlier pointers of the molecule. -/
theorem appendMask_ok (mem : Mem) (a b : ℕ) (ha : a < mem.nAtom)
    (hl : (mem.atom a).mask.length < 4) (hb : b ∉ (mem.atom a).mask) :
    appendMask mem a b = ok (mem.setAtom a { mem.atom a with mask := (mem.atom a).mask ++ [b] }) := by
  unfold appendMask
  rw [require_true ha, ok_bind, check_true hl, ok_bind, check_true hb, ok_bind]

/-- Everything but masks, groups of kind `k` and the corresponding members of
molecules is unchanged. -/
structure SameBut (k : Kind) (mem mem' : Mem) : Prop where
  nMol : mem'.nMol = mem.nMol
  nAtom : mem'.nAtom = mem.nAtom
  nGrp : mem'.nGrp = mem.nGrp
  species : ∀ M, (mem'.mol M).species = (mem.mol M).species
  id : ∀ M, (mem'.mol M).id = (mem.mol M).id
  num : ∀ M, (mem'.mol M).nAtom = (mem.mol M).nAtom
  firstAtom : ∀ M, (mem'.mol M).firstAtom = (mem.mol M).firstAtom
  nums : ∀ M l, l ≠ k → (mem'.mol M).num l = (mem.mol M).num l
  firsts : ∀ M l, l ≠ k → (mem'.mol M).first l = (mem.mol M).first l
  atomMol : ∀ a, (mem'.atom a).mol = (mem.atom a).mol
  atomType : ∀ a, (mem'.atom a).typeId = (mem.atom a).typeId
  active : ∀ a, (mem'.atom a).active = (mem.atom a).active
  grp : ∀ l, l ≠ k → mem'.grp l = mem.grp l
  inactive : ∀ p, (mem'.grp k p).nInactive = (mem.grp k p).nInactive

theorem SameBut.refl (k : Kind) (mem : Mem) : SameBut k mem mem := by
  constructor <;> intros <;> rfl

theorem SameBut.trans {k : Kind} {a b c : Mem} (h : SameBut k a b) (h' : SameBut k b c) :
    SameBut k a c := by
  constructor
  · exact h'.nMol.trans h.nMol
  · exact h'.nAtom.trans h.nAtom
  · exact h'.nGrp.trans h.nGrp
  · exact fun M => (h'.species M).trans (h.species M)
  · exact fun M => (h'.id M).trans (h.id M)
  · exact fun M => (h'.num M).trans (h.num M)
  · exact fun M => (h'.firstAtom M).trans (h.firstAtom M)
  · exact fun M l hl => (h'.nums M l hl).trans (h.nums M l hl)
  · exact fun M l hl => (h'.firsts M l hl).trans (h.firsts M l hl)
  · exact fun M => (h'.atomMol M).trans (h.atomMol M)
  · exact fun M => (h'.atomType M).trans (h.atomType M)
  · exact fun M => (h'.active M).trans (h.active M)
  · exact fun l hl => (h'.grp l hl).trans (h.grp l hl)
  · exact fun M => (h'.inactive M).trans (h.inactive M)

theorem partners_take_succ (gs : List Grp) (n : ℕ) (g : Grp) (hg : gs[n]? = some g) (i : ℤ) :
    partners (gs.take (n + 1)) i = partners (gs.take n) i ++ partners [g] i := by
  have hlt : n < gs.length := (List.getElem?_eq_some_iff.mp hg).1
  have hge : gs[n] = g := (List.getElem?_eq_some_iff.mp hg).2
  rw [List.take_succ_eq_append_getElem hlt, hge, partners, partners, partners,
    List.flatMap_append]

theorem partners_prefix (gs : List Grp) (n : ℕ) (i : ℤ) :
    ∃ l, partners gs i = partners (gs.take n) i ++ l := by
  refine ⟨partners (gs.drop n) i, ?_⟩
  conv_lhs => rw [← List.take_append_drop n gs]
  rw [partners, partners, partners, List.flatMap_append]

/-- Masks of the atoms of the molecule whose first atom is `first` after the
first `n` bonds; other masks are those of `old`. -/
def MaskAt (gs : List Grp) (nAtom : ℤ) (first : ℕ) (old : ℕ → List ℕ) (n : ℕ) (mem : Mem) :
    Prop :=
  (∀ i : ℕ, (i : ℤ) < nAtom → (mem.atom (first + i)).mask =
    (partners (gs.take n) i).map fun a => first + a.toNat) ∧
  ∀ a, (a < first ∨ first + nAtom.toNat ≤ a) → (mem.atom a).mask = old a

/-- Are bonded atoms masked? -/
def masks (masked : Bool) (k : Kind) : Bool :=
  match masked, k with
  | true, .bond => true
  | _, _ => false

theorem mem_map_first {first : ℕ} {l : List ℤ} {y : ℤ} (hy : 0 ≤ y) (hl : ∀ x ∈ l, 0 ≤ x)
    (h : first + y.toNat ∈ l.map fun a => first + a.toNat) : y ∈ l := by
  obtain ⟨x, hx, he⟩ := List.mem_map.mp h
  have := hl x hx
  have : x = y := by omega
  exact this ▸ hx

theorem partners_mem {gs : List Grp} {i x : ℤ} (h : x ∈ partners gs i) :
    ∃ g ∈ gs, x ∈ g.atoms := by
  obtain ⟨g, hg, hx⟩ := List.mem_flatMap.mp h
  refine ⟨g, hg, ?_⟩
  split at hx
  · rename_i u v heq
    rw [heq]
    simp only [List.mem_append] at hx
    rcases hx with hx | hx <;> split at hx <;> simp_all
  · simp at hx

theorem partners_single (g : Grp) (x y i : ℤ) (h : g.atoms = [x, y]) :
    partners [g] i = (if x = i then [y] else []) ++ (if y = i then [x] else []) := by
  simp [partners, h]

/-- The masks of both atoms of a bond are extended. -/
theorem maskBond_ok {gs : List Grp} {nAtom : ℤ} (hp : ∀ g ∈ gs, g.atoms.length = 2)
    (hr : ∀ g ∈ gs, ∀ a ∈ g.atoms, 0 ≤ a ∧ a < nAtom) (hd : ∀ g ∈ gs, g.atoms.Nodup)
    (hs : ∀ i, (partners gs i).Nodup ∧ (partners gs i).length ≤ 4)
    {first n : ℕ} {old : ℕ → List ℕ} {mem : Mem} (h : MaskAt gs nAtom first old n mem)
    (hn : first + nAtom.toNat ≤ mem.nAtom) {g : Grp} (hg : gs[n]? = some g) :
    ∃ mem', maskBond true .bond (g.atoms.map fun a => first + a.toNat) mem = ok mem' ∧
      MaskAt gs nAtom first old (n + 1) mem' ∧ SameBut .bond mem mem' ∧ mem'.grp = mem.grp ∧
      mem'.mol = mem.mol := by
  have hmem : g ∈ gs := List.mem_of_getElem? hg
  obtain ⟨x, y, hxy⟩ := List.length_eq_two.mp (hp g hmem)
  have hx := hr g hmem x (by simp [hxy])
  have hy := hr g hmem y (by simp [hxy])
  have hne : x ≠ y := by
    have := hd g hmem
    rw [hxy] at this
    simpa using this
  obtain ⟨u, rfl⟩ := Int.eq_ofNat_of_zero_le hx.1
  obtain ⟨v, rfl⟩ := Int.eq_ofNat_of_zero_le hy.1
  have hne' : u ≠ v := by rintro rfl; exact hne rfl
  have hu : (mem.atom (first + u)).mask =
      (partners (gs.take n) u).map fun a => first + a.toNat := h.1 u hx.2
  have hv : (mem.atom (first + v)).mask =
      (partners (gs.take n) v).map fun a => first + a.toNat := h.1 v hy.2
  have pu : partners (gs.take (n + 1)) u = partners (gs.take n) u ++ [(v : ℤ)] := by
    rw [partners_take_succ gs n g hg, partners_single g _ _ _ hxy]
    simp [show ¬ v = u from fun h => hne' h.symm]
  have pv : partners (gs.take (n + 1)) v = partners (gs.take n) v ++ [(u : ℤ)] := by
    rw [partners_take_succ gs n g hg, partners_single g _ _ _ hxy]
    simp [hne']
  have nonneg : ∀ i, ∀ z ∈ partners (gs.take n) i, (0 : ℤ) ≤ z := by
    intro i z hz
    obtain ⟨g', hg', hz'⟩ := partners_mem hz
    exact (hr g' (List.mem_of_mem_take hg') z hz').1
  have room : ∀ (i z : ℤ), partners (gs.take (n + 1)) i = partners (gs.take n) i ++ [z] →
      (partners (gs.take n) i).length < 4 ∧ z ∉ partners (gs.take n) i := by
    intro i z he
    obtain ⟨l, hl⟩ := partners_prefix gs (n + 1) i
    obtain ⟨s1, s2⟩ := hs i
    rw [hl, he] at s1 s2
    constructor
    · simp only [List.length_append, List.length_cons, List.length_nil] at s2; omega
    · intro hz
      have := (List.nodup_append.mp (List.nodup_append.mp s1).1).2.2 z hz z (by simp)
      exact this rfl
  obtain ⟨ru1, ru2⟩ := room u v pu
  obtain ⟨rv1, rv2⟩ := room v u pv
  have hun : first + u < mem.nAtom := by omega
  have hvn : first + v < mem.nAtom := by omega
  have hfne : first + v ≠ first + u := by omega
  simp only [hxy, List.map_cons, List.map_nil, Int.toNat_natCast, maskBond]
  have e1 := appendMask_ok mem (first + u) (first + v) hun
    (by rw [hu, List.length_map]; exact ru1)
    (by
      rw [hu]
      intro hh
      exact ru2 (mem_map_first (first := first) (y := (v : ℤ)) (by omega) (nonneg u)
        (by simpa using hh)))
  rw [e1, ok_bind]
  have e2 := appendMask_ok (mem.setAtom (first + u)
      { mem.atom (first + u) with mask := (mem.atom (first + u)).mask ++ [first + v] })
    (first + v) (first + u) hvn
    (by simp only [Mem.setAtom]; rw [Function.update_of_ne hfne, hv, List.length_map]; exact rv1)
    (by
      simp only [Mem.setAtom]
      rw [Function.update_of_ne hfne, hv]
      intro hh
      exact rv2 (mem_map_first (first := first) (y := (u : ℤ)) (by omega) (nonneg v)
        (by simpa using hh)))
  rw [e2]
  refine ⟨_, rfl, ⟨?_, ?_⟩, ?_, rfl, rfl⟩
  · intro i hi
    simp only [Mem.setAtom]
    by_cases hiv : i = v
    · subst hiv
      rw [Function.update_self, Function.update_of_ne hfne, pv, hv]
      simp
    · rw [Function.update_of_ne (by omega)]
      by_cases hiu : i = u
      · subst hiu
        rw [Function.update_self, pu, hu]
        simp
      · rw [Function.update_of_ne (by omega), h.1 i hi, partners_take_succ gs n g hg,
          partners_single g _ _ _ hxy]
        have h1 : ¬ ((u : ℤ) = i) := by omega
        have h2 : ¬ ((v : ℤ) = i) := by omega
        rw [if_neg h1, if_neg h2]
        simp
  · intro a ha
    simp only [Mem.setAtom]
    rw [Function.update_of_ne (by omega), Function.update_of_ne (by omega)]
    exact h.2 a ha
  · constructor <;> intros <;> try rfl
    all_goals
      rename_i a
      simp only [Mem.setAtom]
      by_cases h1 : a = first + v
      · subst h1
        rw [Function.update_self, Function.update_of_ne hfne]
      · rw [Function.update_of_ne h1]
        by_cases h2 : a = first + u
        · subst h2; rw [Function.update_self]
        · rw [Function.update_of_ne h2]

end Verif.McMem
