/-
Invariants of the initialization of covalent groups.
-/
import Verif.McMem.Lemmas

set_option autoImplicit false

namespace Verif.McMem

open Verif.Cpp
open Verif.Cpp.Out
open Verif.Species (Sp Part Grp nullGrp PartOK)
open Finset (range)

/-- Masks after the first `n` groups of a molecule. -/
def MaskInv (on : Bool) (gs : List Grp) (nAtom : ℤ) (first : ℕ) (old : ℕ → List ℕ) (n : ℕ)
    (mem : Mem) : Prop :=
  if on then MaskAt gs nAtom first old n mem else ∀ a, (mem.atom a).mask = old a

theorem maskBond_off {masked : Bool} {k : Kind} (h : masks masked k = false) (l : List ℕ)
    (mem : Mem) : maskBond masked k l mem = ok mem := by
  cases masked <;> cases k <;> first | rfl | simp [masks] at h

theorem masks_on {masked : Bool} {k : Kind} (h : masks masked k = true) :
    masked = true ∧ k = .bond := by
  cases masked <;> cases k <;> simp_all [masks]

theorem setGrp_same (k : Kind) (mem : Mem) (p : ℕ) (l : List ℕ) (t : ℤ) :
    SameBut k mem (mem.setGrp k p { mem.grp k p with atoms := l, typeId := t }) := by
  constructor <;> intros <;> try rfl
  · rename_i l hl
    simp only [Mem.setGrp]
    exact Function.update_of_ne hl _ _
  · rename_i q
    simp only [Mem.setGrp, Function.update_self]
    by_cases hq : q = p
    · subst hq; rw [Function.update_self]
    · rw [Function.update_of_ne hq]

/-- Groups of one molecule. -/
theorem grpLoop {masked : Bool} {k : Kind} {nAtom : ℤ} {pt : Part}
    (hpt : PartOK k.size nAtom pt)
    (hs : masks masked k = true → ∀ i, (partners pt.grps i).Nodup ∧
      (partners pt.grps i).length ≤ 4)
    {first p : ℕ} {old : ℕ → List ℕ} {mem : Mem} (hn : first + nAtom.toNat ≤ mem.nAtom)
    (hg : p + pt.grps.length ≤ mem.nGrp k)
    (h0 : MaskInv (masks masked k) pt.grps nAtom first old 0 mem) :
    ∃ mem', loop (grpStep masked k pt.grps first) (List.range pt.n.toNat) (mem, p) =
        ok (mem', p + pt.grps.length) ∧
      SameBut k mem mem' ∧ mem'.mol = mem.mol ∧ (∀ q < p, mem'.grp k q = mem.grp k q) ∧
      (∀ (j : ℕ) (g : Grp), pt.grps[j]? = some g →
        (mem'.grp k (p + j)).atoms = g.atoms.map (fun a => first + a.toNat) ∧
        (mem'.grp k (p + j)).typeId = g.typeId) ∧
      MaskInv (masks masked k) pt.grps nAtom first old pt.grps.length mem' := by
  have hlen : pt.n.toNat = pt.grps.length := by have := hpt.len; omega
  rw [hlen]
  obtain ⟨⟨mem', p'⟩, hl, h1, h2, h3, h4, h5, h6⟩ := loop_range_ok
    (P := fun (i : ℕ) (st : Mem × ℕ) => st.2 = p + i ∧ SameBut k mem st.1 ∧
      st.1.mol = mem.mol ∧ (∀ q < p, st.1.grp k q = mem.grp k q) ∧
      (∀ (j : ℕ) (g : Grp), j < i → pt.grps[j]? = some g →
        (st.1.grp k (p + j)).atoms = g.atoms.map (fun a => first + a.toNat) ∧
        (st.1.grp k (p + j)).typeId = g.typeId) ∧
      MaskInv (masks masked k) pt.grps nAtom first old i st.1)
    (grpStep masked k pt.grps first) pt.grps.length (mem, p)
    ⟨rfl, SameBut.refl _ _, rfl, fun _ _ => rfl, fun j g hj => by omega, h0⟩ (by
      rintro i hi ⟨mem1, p1⟩ ⟨h1, h2, h3, h4, h5, h6⟩
      simp only at h1 h2 h3 h4 h5 h6
      subst h1
      set g := pt.grps[i] with hgdef
      have hgi : pt.grps[i]? = some g := List.getElem?_eq_getElem hi
      have hmem : g ∈ pt.grps := List.getElem_mem hi
      have hgetD : pt.grps.getD i (nullGrp 0) = g := by
        rw [List.getD_eq_getElem?_getD, hgi]; rfl
      set mem2 := mem1.setGrp k (p + i)
        { mem1.grp k (p + i) with atoms := g.atoms.map (fun a => first + a.toNat), typeId := g.typeId }
        with hmem2
      have hsame2 : SameBut k mem1 mem2 := setGrp_same k mem1 (p + i) _ _
      -- masks
      obtain ⟨mem3, e3, m3, s3, g3, mo3⟩ : ∃ mem3,
          maskBond masked k (g.atoms.map fun a => first + a.toNat) mem2 = ok mem3 ∧
          MaskInv (masks masked k) pt.grps nAtom first old (i + 1) mem3 ∧
          SameBut k mem2 mem3 ∧ mem3.grp = mem2.grp ∧ mem3.mol = mem2.mol := by
        by_cases hon : masks masked k = true
        · obtain ⟨rfl, rfl⟩ := masks_on hon
          have hm2 : MaskAt pt.grps nAtom first old i mem2 := by
            have : MaskAt pt.grps nAtom first old i mem1 := by simpa [MaskInv, hon] using h6
            exact this
          obtain ⟨mem3, e, m, s, gg, mm⟩ := maskBond_ok hpt.size hpt.range hpt.distinct (hs hon) hm2
            (by rw [hsame2.nAtom, h2.nAtom]; exact hn) hgi
          exact ⟨mem3, e, by simpa [MaskInv, hon] using m, s, gg, mm⟩
        · have hoff : masks masked k = false := by simpa using hon
          refine ⟨mem2, maskBond_off hoff _ _, ?_, SameBut.refl _ _, rfl, rfl⟩
          simp only [MaskInv, hoff, Bool.false_eq_true, if_false] at h6 ⊢
          exact h6
      refine ⟨(mem3, p + i + 1), ?_, rfl, (h2.trans hsame2).trans s3, ?_, ?_, ?_, m3⟩
      · simp only [grpStep, hgetD]
        rw [require_true (fun a ha => (hpt.range g hmem a ha).1), ok_bind,
          require_true (by rw [h2.nGrp]; omega), ok_bind, e3, ok_bind]
      · rw [mo3]; exact h3
      · intro q hq
        rw [g3, hmem2]
        simp only [Mem.setGrp, Function.update_self]
        rw [Function.update_of_ne (by omega)]
        exact h4 q hq
      · intro j g' hj hg'
        rw [g3, hmem2]
        simp only [Mem.setGrp, Function.update_self]
        by_cases hji : j = i
        · subst hji
          have : g' = g := by rw [hgi] at hg'; exact (Option.some.inj hg').symm
          subst this
          rw [Function.update_self]
          exact ⟨rfl, rfl⟩
        · rw [Function.update_of_ne (by omega)]
          exact h5 j g' (by omega) hg')
  simp only at h1 h2 h3 h4 h5 h6
  subst h1
  refine ⟨mem', hl, h2, h3, h4, fun j g hg => ?_, h6⟩
  exact h5 j g (List.getElem?_eq_some_iff.mp hg).1 hg

/-- Masks of all atoms of molecules below `nm`, after initialization of the
bonds, and of the other atoms. -/
def MasksOK (on : Bool) (sps : List Spec) (mem : Mem) (nm na : ℕ) : Prop :=
  (∀ M < nm, ∀ s, sps[(mem.mol M).species]? = some s → ∀ i < (mem.mol M).nAtom,
    (mem.atom ((mem.mol M).firstAtom + i)).mask =
      if on then (partners s.sp.bonds.grps i).map fun a => (mem.mol M).firstAtom + a.toNat
      else []) ∧
  ∀ a, na ≤ a → (mem.atom a).mask = []

/-- `AtomsOK` does not depend on groups and masks. -/
theorem AtomsOK.same {k : Kind} {sps : List Spec} {mem mem' : Mem} {nm na : ℕ}
    (h : AtomsOK sps mem nm na) (hs : SameBut k mem mem') : AtomsOK sps mem' nm na := by
  constructor
  · simp only [hs.num]; exact h.total
  · intro M hM; simp only [hs.num, hs.firstAtom]; exact h.first M hM
  · intro M hM
    simp only [hs.num, hs.firstAtom, hs.species, hs.atomMol, hs.atomType]
    exact h.atoms M hM

theorem GrpsOK.same {k l : Kind} (hkl : l ≠ k) {sps : List Spec} {mem mem' : Mem} {nm np : ℕ}
    (h : GrpsOK l sps mem nm np) (hs : SameBut k mem mem') : GrpsOK l sps mem' nm np := by
  have hn : ∀ M, (mem'.mol M).num l = (mem.mol M).num l := fun M => hs.nums M l hkl
  constructor
  · simp only [hn]; exact h.total
  · intro M hM; simp only [hn, hs.firsts M l hkl]; exact h.first M hM
  · intro M hM
    simp only [hn, hs.firstAtom, hs.species, hs.grp l hkl]
    exact h.grps M hM

/-- One molecule. -/
theorem kindMolStep_ok {masked : Bool} {k : Kind} {sps : List Spec} {s : Spec}
    (hpt : PartOK k.size s.sp.nAtom (partOf s.sp k))
    (hs : masks masked k = true → Simple s)
    {mem : Mem} {nm na np nm0 na0 : ℕ} (hA : AtomsOK sps mem nm0 na0) (hm0 : nm < nm0)
    (hk : sps[(mem.mol nm).species]? = some s)
    (hm : nm < mem.nMol) (hna0 : na0 ≤ mem.nAtom)
    (hna : na = ∑ j ∈ range nm, (mem.mol j).nAtom)
    (h : GrpsOK k sps mem nm np) (hmask : MasksOK (masks masked k) sps mem nm na ∨
      masks masked k = false)
    (hp : np + (partOf s.sp k).grps.length ≤ mem.nGrp k) (i : ℕ) :
    ∃ mem', kindMolStep masked k s.sp (mem, nm, np) i =
        ok (mem', nm + 1, np + (partOf s.sp k).grps.length) ∧
      GrpsOK k sps mem' (nm + 1) (np + (partOf s.sp k).grps.length) ∧ SameBut k mem mem' ∧
      (∀ M, nm < M → mem'.mol M = mem.mol M) ∧
      (MasksOK (masks masked k) sps mem' (nm + 1) (na + (mem.mol nm).nAtom) ∨
        masks masked k = false) ∧
      (masks masked k = false → ∀ a, (mem'.atom a).mask = (mem.atom a).mask) := by
  obtain ⟨s', hs1, hs2, -⟩ := hA.atoms nm hm0
  obtain rfl : s' = s := by rw [hk] at hs1; exact (Option.some.inj hs1).symm
  have hfirst := hA.first nm hm0
  have hle := sum_le_sum_lt hm0 fun j => (mem.mol j).nAtom
  rw [← hA.total, ← hfirst] at hle
  simp only [kindMolStep]
  rw [require_true hm, ok_bind]
  set r : MolRec := { mem.mol nm with
      num := Function.update (mem.mol nm).num k (partOf s'.sp k).n.toNat
      first := Function.update (mem.mol nm).first k (some np) } with hr
  set mem1 := mem.setMol nm r with hmem1
  have hmol1 : mem1.mol nm = r := by simp [hmem1, Mem.setMol]
  have hother : ∀ M, M ≠ nm → mem1.mol M = mem.mol M := fun M hM => by
    simp only [hmem1, Mem.setMol]; exact Function.update_of_ne hM _ _
  have hcase : ∀ {Q : MolRec → MolRec → Prop}, Q r (mem.mol nm) → (∀ x, Q x x) →
      ∀ M, Q (mem1.mol M) (mem.mol M) := by
    intro Q h1 h2 M
    by_cases hM : M = nm
    · subst hM; rw [hmol1]; exact h1
    · rw [hother M hM]; exact h2 _
  have hsame1 : SameBut k mem mem1 :=
    { nMol := rfl
      nAtom := rfl
      nGrp := rfl
      species := hcase (Q := fun x y => x.species = y.species) rfl fun _ => rfl
      id := hcase (Q := fun x y => x.id = y.id) rfl fun _ => rfl
      num := hcase (Q := fun x y => x.nAtom = y.nAtom) rfl fun _ => rfl
      firstAtom := hcase (Q := fun x y => x.firstAtom = y.firstAtom) rfl fun _ => rfl
      nums := hcase (Q := fun x y => ∀ l, l ≠ k → x.num l = y.num l)
        (fun l hl => Function.update_of_ne hl _ _) fun _ _ _ => rfl
      firsts := hcase (Q := fun x y => ∀ l, l ≠ k → x.first l = y.first l)
        (fun l hl => Function.update_of_ne hl _ _) fun _ _ _ => rfl
      atomMol := fun _ => rfl
      atomType := fun _ => rfl
      active := fun _ => rfl
      grp := fun _ _ => rfl
      inactive := fun _ => rfl }
  have hfa : (mem1.mol nm).firstAtom = (mem.mol nm).firstAtom := hsame1.firstAtom nm
  rw [hfa]
  have hnn : (mem.mol nm).firstAtom + s'.sp.nAtom.toNat ≤ mem1.nAtom := by
    rw [hsame1.nAtom, ← hs2]; omega
  have h0 : MaskInv (masks masked k) (partOf s'.sp k).grps s'.sp.nAtom (mem.mol nm).firstAtom
      (fun a => (mem.atom a).mask) 0 mem1 := by
    unfold MaskInv
    by_cases hon : masks masked k = true
    · rw [if_pos hon]
      have hmask' := hmask.resolve_right (by rw [hon]; simp)
      refine ⟨fun j hj => ?_, fun a ha => rfl⟩
      simp only [List.take_zero]
      have : (mem.atom ((mem.mol nm).firstAtom + j)).mask = [] :=
        hmask'.2 _ (by rw [hna, ← hfirst]; omega)
      exact this
    · rw [if_neg hon]; exact fun a => rfl
  obtain ⟨mem2, e, h2, h3, h4, h5, h6⟩ := grpLoop (masked := masked) hpt
    (fun hon => by
      obtain ⟨rfl, rfl⟩ := masks_on hon
      exact hs hon) hnn (by rw [hsame1.nGrp]; exact hp) h0
  rw [e, ok_bind]
  have hsame := hsame1.trans h2
  have hmolnm : mem2.mol nm = r := by rw [h3, hmol1]
  have hmolne : ∀ M, M ≠ nm → mem2.mol M = mem.mol M := fun M hM => by rw [h3, hother M hM]
  have hnumr : r.num k = (partOf s'.sp k).grps.length := by
    simp only [hr, Function.update_self]; have := hpt.len; omega
  have hsumlt : ∀ n ≤ nm, ∑ j ∈ range n, (mem2.mol j).num k = ∑ j ∈ range n, (mem.mol j).num k :=
    fun n hn => sum_congr_lt hn fun j hj => by rw [hmolne j (by omega)]
  refine ⟨mem2, rfl, ?_, hsame, fun M hM => hmolne M (by omega), ?_, ?_⟩
  · constructor
    · rw [Finset.sum_range_succ, hsumlt nm le_rfl, hmolnm, hnumr, h.total]
    · intro M hM
      rw [hsumlt M (by omega)]
      rcases Nat.lt_succ_iff_lt_or_eq.mp hM with hM | rfl
      · rw [hmolne M (by omega)]; exact h.first M hM
      · rw [hmolnm, hr]; simp only [Function.update_self, h.total]
    · intro M hM
      rw [hsumlt M (by omega)]
      rcases Nat.lt_succ_iff_lt_or_eq.mp hM with hM | rfl
      · rw [hmolne M (by omega)]
        obtain ⟨s1, g1, g2, g3⟩ := h.grps M hM
        refine ⟨s1, g1, g2, fun j g hg => ?_⟩
        have hjl : j < (mem.mol M).num k := by
          rw [g2]; exact (List.getElem?_eq_some_iff.mp hg).1
        have hlt : (∑ j ∈ range M, (mem.mol j).num k) + j < np := by
          have := sum_le_sum_lt hM fun j => (mem.mol j).num k
          rw [h.total]; omega
        rw [h4 _ hlt]
        exact g3 j g hg
      · refine ⟨s', ?_, ?_, fun j g hg => ?_⟩
        · rw [hsame.species]; exact hk
        · rw [hmolnm, hnumr]
        · rw [hsame.firstAtom, ← h.total]
          exact h5 j g hg
  · by_cases hon : masks masked k = true
    · left
      have hmask' := hmask.resolve_right (by rw [hon]; simp)
      simp only [MaskInv, hon, if_true] at h6
      rw [hon] at hmask'
      obtain ⟨rfl, rfl⟩ := masks_on hon
      constructor
      · intro M hM s1 ht1 j hj
        rw [hsame.species] at ht1
        rw [hsame.num] at hj
        rw [hsame.firstAtom]
        simp only [hon, if_true]
        rcases Nat.lt_succ_iff_lt_or_eq.mp hM with hM | rfl
        · rw [h6.2 _ (by
            left
            have hM0 : M < nm0 := by omega
            rw [hA.first M hM0, hfirst]
            have := sum_le_sum_lt hM fun j => (mem.mol j).nAtom
            omega)]
          simpa using hmask'.1 M hM s1 ht1 j hj
        · obtain rfl : s' = s1 := Option.some.inj (hk.symm.trans ht1)
          rw [h6.1 j (by omega), List.take_of_length_le le_rfl]
          rfl
      · intro a ha
        rw [h6.2 a (by right; rw [hfirst, ← hna, ← hs2]; exact ha)]
        exact hmask'.2 a (by omega)
    · right; simpa using hon
  · intro hoff a
    simp only [MaskInv, hoff, Bool.false_eq_true, if_false] at h6
    exact h6 a

end Verif.McMem
