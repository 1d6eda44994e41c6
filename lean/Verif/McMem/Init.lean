/-
The loops over species in `initializeSpeciesData`.
-/
import Verif.McMem.Groups

set_option autoImplicit false

namespace Verif.McMem

open Verif.Cpp
open Verif.Cpp.Out
open Verif.Species (Sp Part Grp nullGrp PartOK)
open Finset (range)

/-- All molecules of one species. -/
theorem initKind_ok {masked : Bool} {k : Kind} {sps : List Spec} {sl : Slot}
    (hk : sps[sl.idx]? = some sl.s)
    (hpt : PartOK k.size sl.s.sp.nAtom (partOf sl.s.sp k))
    (hs : masks masked k = true → Simple sl.s)
    {mem : Mem} {nm0 na0 : ℕ} (hA : AtomsOK sps mem nm0 na0)
    (hm0 : sl.fm + sl.s.capacity.toNat ≤ nm0)
    (hsp : ∀ i < sl.s.capacity.toNat, (mem.mol (sl.fm + i)).species = sl.idx)
    (hm : nm0 ≤ mem.nMol) (hna0 : na0 ≤ mem.nAtom)
    (hna : sl.fa = ∑ j ∈ range sl.fm, (mem.mol j).nAtom)
    (h : GrpsOK k sps mem sl.fm (sl.fg k)) (hmask : MasksOK (masks masked k) sps mem sl.fm sl.fa ∨
      masks masked k = false)
    (hp : sl.fg k + sl.s.capacity.toNat * (partOf sl.s.sp k).n.toNat ≤ mem.nGrp k) :
    ∃ mem', initKind masked k mem sl = ok mem' ∧
      GrpsOK k sps mem' (sl.fm + sl.s.capacity.toNat)
        (sl.fg k + sl.s.capacity.toNat * (partOf sl.s.sp k).n.toNat) ∧
      SameBut k mem mem' ∧
      (MasksOK (masks masked k) sps mem' (sl.fm + sl.s.capacity.toNat)
        (sl.fa + sl.s.capacity.toNat * sl.s.sp.nAtom.toNat) ∨ masks masked k = false) ∧
      (masks masked k = false → ∀ a, (mem'.atom a).mask = (mem.atom a).mask) := by
  have hlen : (partOf sl.s.sp k).n.toNat = (partOf sl.s.sp k).grps.length := by
    have := hpt.len; omega
  rw [hlen] at hp ⊢
  obtain ⟨⟨mem', nm, np⟩, hl, h1, h2, h3, h4, h5, h6⟩ := loop_range_ok
    (P := fun (i : ℕ) (st : Mem × ℕ × ℕ) => st.2.1 = sl.fm + i ∧
      st.2.2 = sl.fg k + i * (partOf sl.s.sp k).grps.length ∧
      GrpsOK k sps st.1 st.2.1 st.2.2 ∧ SameBut k mem st.1 ∧
      (MasksOK (masks masked k) sps st.1 st.2.1 (sl.fa + i * sl.s.sp.nAtom.toNat) ∨
        masks masked k = false) ∧
      (masks masked k = false → ∀ a, (st.1.atom a).mask = (mem.atom a).mask))
    (kindMolStep masked k sl.s.sp) sl.s.capacity.toNat (mem, sl.fm, sl.fg k)
    ⟨rfl, by simp, h, SameBut.refl _ _, by simpa using hmask, fun _ _ => rfl⟩ (by
      rintro i hi ⟨mem1, nm, np⟩ ⟨h1, h2, h3, h4, h5, h6⟩
      simp only at h1 h2 h3 h4 h5 h6
      have hmul : i * (partOf sl.s.sp k).grps.length + (partOf sl.s.sp k).grps.length ≤
          sl.s.capacity.toNat * (partOf sl.s.sp k).grps.length := by
        rw [← Nat.succ_mul]; exact Nat.mul_le_mul_right _ hi
      have hA1 := hA.same h4
      have hspec : sps[(mem1.mol nm).species]? = some sl.s := by
        rw [h4.species, h1, hsp i hi]; exact hk
      have hlt : nm < nm0 := by omega
      have hnAtom : ∀ j, j < sl.s.capacity.toNat → (mem1.mol (sl.fm + j)).nAtom = sl.s.sp.nAtom.toNat := by
        intro j hj
        obtain ⟨s', e1, e2, -⟩ := hA1.atoms (sl.fm + j) (by omega)
        rw [h4.species, hsp j hj, hk] at e1
        rw [e2, ← Option.some.inj e1]
      have hsum : ∀ j, j ≤ sl.s.capacity.toNat → ∑ x ∈ range (sl.fm + j), (mem1.mol x).nAtom =
          sl.fa + j * sl.s.sp.nAtom.toNat := by
        intro j
        induction j with
        | zero =>
          intro _
          simp only [Nat.add_zero, Nat.zero_mul, h4.num]
          exact hna.symm
        | succ j ih =>
          intro hj
          rw [← Nat.add_assoc, Finset.sum_range_succ, ih (by omega), hnAtom j (by omega),
            Nat.succ_mul]
          omega
      obtain ⟨mem2, g1, g2, g3, -, g5, g6⟩ := kindMolStep_ok (masked := masked) hpt hs hA1 hlt hspec
        (by rw [h4.nMol]; omega) (by rw [h4.nAtom]; omega)
        (na := sl.fa + i * sl.s.sp.nAtom.toNat) (by rw [h1, hsum i hi.le]) h3 h5
        (by rw [h4.nGrp]; omega) i
      refine ⟨_, g1, ?_, ?_, g2, h4.trans g3, ?_, ?_⟩
      · simp only []; omega
      · simp only []; rw [Nat.succ_mul]; omega
      · simp only []
        rw [Nat.succ_mul, ← Nat.add_assoc]
        rw [h1, hnAtom i hi] at g5
        rw [h1]; exact g5
      · intro hoff a
        rw [← h6 hoff a]
        exact g6 hoff a)
  simp only at h1 h2 h3 h4 h5 h6
  subst h1 h2
  exact ⟨mem', by rw [initKind, hl, ok_bind], h3, h4, h5, h6⟩

/-- Blocks of consecutive species. -/
inductive Chain (on : Kind → Bool) (sps : List Spec) : ℕ → Total → List Slot → Total → Prop
  | nil (t : Total) : Chain on sps sps.length t [] t
  | cons (t tt : Total) (sl : Slot) (l : List Slot) (hk : sps[sl.idx]? = some sl.s)
      (hm : sl.fm = t.nm) (ha : sl.fa = t.na) (hg : sl.fg = t.ng)
      (h : Chain on sps (sl.idx + 1) ⟨t.nm + sl.s.capacity.toNat,
        t.na + sl.s.capacity.toNat * sl.s.sp.nAtom.toNat, fun k =>
        if on k then t.ng k + sl.s.capacity.toNat * (partOf sl.s.sp k).n.toNat else t.ng k⟩ l tt) :
      Chain on sps sl.idx t (sl :: l) tt

theorem layout_chain (on : Kind → Bool) (sps : List Spec)
    (hid : ∀ (i : ℕ) (s : Spec), sps[i]? = some s → s.id = i)
    (hcap : ∀ s ∈ sps, 0 < s.capacity) :
    ∀ (rest : List Spec) (i : ℕ) (t : Total), sps.drop i = rest → i ≤ sps.length →
      ∃ l tt, layout on i t rest = ok (l, tt) ∧ Chain on sps i t l tt := by
  intro rest
  induction rest with
  | nil =>
    intro i t hd hi
    have : i = sps.length := by
      have := List.drop_eq_nil_iff.mp hd
      omega
    subst this
    exact ⟨[], t, rfl, Chain.nil t⟩
  | cons s rest ih =>
    intro i t hd hi
    have hilt : i < sps.length := by
      by_contra hc
      rw [List.drop_eq_nil_iff.mpr (by omega)] at hd
      simp at hd
    have hsi : sps[i]? = some s := by
      have := congrArg (fun l => l[0]?) hd
      simpa using this
    have hd' : sps.drop (i + 1) = rest := by
      rw [← List.drop_drop, hd]; rfl
    obtain ⟨l, tt, e, hc⟩ := ih (i + 1) ⟨t.nm + s.capacity.toNat,
      t.na + s.capacity.toNat * s.sp.nAtom.toNat, fun k =>
        if on k then t.ng k + s.capacity.toNat * (partOf s.sp k).n.toNat else t.ng k⟩ hd' (by omega)
    refine ⟨⟨i, s, t.nm, t.na, t.ng⟩ :: l, tt, ?_, ?_⟩
    · simp only [layout]
      rw [check_true (hid i s hsi), ok_bind,
        check_true (hcap s (List.mem_of_getElem? hsi)), ok_bind, e, ok_bind]
    · exact Chain.cons t tt ⟨i, s, t.nm, t.na, t.ng⟩ l hsi rfl rfl rfl hc

theorem Chain.le {on : Kind → Bool} {sps : List Spec} {i : ℕ} {t tt : Total} {l : List Slot}
    (h : Chain on sps i t l tt) : t.nm ≤ tt.nm ∧ t.na ≤ tt.na ∧ ∀ k, t.ng k ≤ tt.ng k := by
  induction h with
  | nil t => exact ⟨le_rfl, le_rfl, fun _ => le_rfl⟩
  | cons t tt sl l hk hm ha hg h ih =>
    obtain ⟨h1, h2, h3⟩ := ih
    simp only at h1 h2 h3
    refine ⟨by omega, by omega, fun k => ?_⟩
    have := h3 k
    split at this <;> omega

/-- The molecules of the blocks in `l`, from the first block on. -/
def Blocks (mem : Mem) (l : List Slot) : Prop :=
  ∀ sl ∈ l, ∀ i < sl.s.capacity.toNat,
    (mem.mol (sl.fm + i)).species = sl.idx ∧ (mem.mol (sl.fm + i)).id = i

theorem allMols_ok {on : Kind → Bool} {sps : List Spec} {i : ℕ} {t tt : Total} {l : List Slot}
    (hc : Chain on sps i t l tt) :
    ∀ mem : Mem, AtomsOK sps mem t.nm t.na → tt.nm ≤ mem.nMol → tt.na ≤ mem.nAtom →
      ∃ mem', loop initMols l mem = ok mem' ∧ AtomsOK sps mem' tt.nm tt.na ∧ SameRest mem mem' ∧
        (∀ M < t.nm, mem'.mol M = mem.mol M) ∧ Blocks mem' l := by
  induction hc with
  | nil t => exact fun mem h _ _ => ⟨mem, rfl, h, SameRest.refl _, fun _ _ => rfl, by simp [Blocks]⟩
  | cons t tt sl l hk hm ha hg h ih =>
    intro mem hA hnm hna
    have hle := h.le
    simp only at hle
    rw [← hm, ← ha] at hA
    obtain ⟨mem1, e1, a1, r1, b1, c1⟩ := initMols_ok hk hA (by rw [hm]; omega)
      (by rw [ha]; omega)
    rw [hm, ha] at a1
    obtain ⟨mem2, e2, a2, r2, b2, c2⟩ := ih mem1 a1 (by rw [r1.nMol]; exact hnm)
      (by rw [r1.nAtom]; exact hna)
    simp only at b2
    refine ⟨mem2, ?_, a2, r1.trans r2, ?_, ?_⟩
    · simp only [loop, e1, ok_bind, e2]
    · intro M hM
      rw [b2 M (by omega), b1 M (by omega)]
    · intro sl' hsl' j hj
      rcases List.mem_cons.mp hsl' with rfl | hsl'
      · rw [b2 _ (by omega)]; exact c1 j hj
      · exact c2 sl' hsl' j hj

theorem allKind_ok {on : Kind → Bool} {sps : List Spec} {masked : Bool} {k : Kind}
    (hon : on k = true)
    (hpt : ∀ s ∈ sps, PartOK k.size s.sp.nAtom (partOf s.sp k))
    (hs : masks masked k = true → ∀ s ∈ sps, Simple s)
    {i : ℕ} {t tt : Total} {l : List Slot} (hc : Chain on sps i t l tt) {nm0 na0 : ℕ} :
    ∀ mem : Mem, AtomsOK sps mem nm0 na0 → nm0 ≤ mem.nMol → na0 ≤ mem.nAtom →
      tt.nm ≤ nm0 → tt.ng k ≤ mem.nGrp k → Blocks mem l →
      t.na = ∑ j ∈ range t.nm, (mem.mol j).nAtom →
      GrpsOK k sps mem t.nm (t.ng k) →
      (MasksOK (masks masked k) sps mem t.nm t.na ∨ masks masked k = false) →
      ∃ mem', loop (initKind masked k) l mem = ok mem' ∧
        GrpsOK k sps mem' tt.nm (tt.ng k) ∧ SameBut k mem mem' ∧
        (MasksOK (masks masked k) sps mem' tt.nm tt.na ∨ masks masked k = false) ∧
        (masks masked k = false → ∀ a, (mem'.atom a).mask = (mem.atom a).mask) := by
  induction hc with
  | nil t => exact fun mem _ _ _ _ _ _ _ h hm => ⟨mem, rfl, h, SameBut.refl _ _, hm, fun _ _ => rfl⟩
  | cons t tt sl l hk hm ha hg h ih =>
    intro mem hA hnm hna htt hng hB hsum hG hM
    have hle := h.le
    simp only [hon, if_true] at hle
    have hgk : sl.fg k = t.ng k := by rw [hg]
    have hmem : sl.s ∈ sps := List.mem_of_getElem? hk
    have hle2 := hle.2.2 k
    rw [if_pos hon] at hle2
    obtain ⟨mem1, e1, g1, s1, m1, o1⟩ := initKind_ok (masked := masked) hk (hpt _ hmem)
      (fun ho => hs ho _ hmem) hA (by rw [hm]; omega)
      (fun i hi => (hB sl (List.mem_cons_self ..) i hi).1) hnm hna (by rw [ha, hm]; exact hsum)
      (by rw [hm, hgk]; exact hG) (by rw [hm, ha]; exact hM) (by rw [hgk]; omega)
    rw [hm, hgk] at g1
    rw [hm, ha] at m1
    have hA1 := hA.same s1
    obtain ⟨mem2, e2, g2, s2, m2, o2⟩ := ih mem1 hA1 (by rw [s1.nMol]; exact hnm)
      (by rw [s1.nAtom]; exact hna) htt (by rw [s1.nGrp]; exact hng)
      (fun sl' h' j hj => by
        rw [s1.species, s1.id]; exact hB sl' (List.mem_cons_of_mem _ h') j hj)
      (by
        simp only [s1.num]
        have hn : ∀ j, j ≤ sl.s.capacity.toNat → ∑ x ∈ range (t.nm + j), (mem.mol x).nAtom =
            t.na + j * sl.s.sp.nAtom.toNat := by
          intro j
          induction j with
          | zero => intro _; simpa using hsum.symm
          | succ j ihj =>
            intro hj
            obtain ⟨s', e1, e2, -⟩ := hA.atoms (t.nm + j) (by omega)
            rw [← hm, (hB sl (List.mem_cons_self ..) j (by omega)).1, hk] at e1
            rw [← Nat.add_assoc, Finset.sum_range_succ, ihj (by omega), e2, ← Option.some.inj e1,
              Nat.succ_mul]
            omega
        exact (hn _ le_rfl).symm)
      (by simp only [hon, if_true]; exact g1) m1
    refine ⟨mem2, ?_, g2, s1.trans s2, m2, ?_⟩
    · simp only [loop, e1, ok_bind, e2]
    · intro hoff a
      rw [o2 hoff, o1 hoff]

end Verif.McMem
