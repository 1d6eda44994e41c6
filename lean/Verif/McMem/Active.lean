/-
C36: deactivation and reactivation of atoms (`Activate`).
-/
import Verif.McMem.Props

set_option autoImplicit false

namespace Verif.McMem

open Verif.Cpp
open Verif.Cpp.Out
open Verif.Species (Sp Part Grp nullGrp PartOK)

/-- Everything but the activity of atoms and groups is unchanged. -/
structure SameStatic (mem mem' : Mem) : Prop where
  nMol : mem'.nMol = mem.nMol
  nAtom : mem'.nAtom = mem.nAtom
  nGrp : mem'.nGrp = mem.nGrp
  mol : mem'.mol = mem.mol
  atomMol : ∀ a, (mem'.atom a).mol = (mem.atom a).mol
  atomType : ∀ a, (mem'.atom a).typeId = (mem.atom a).typeId
  mask : ∀ a, (mem'.atom a).mask = (mem.atom a).mask
  grpAtoms : ∀ k p, (mem'.grp k p).atoms = (mem.grp k p).atoms
  grpType : ∀ k p, (mem'.grp k p).typeId = (mem.grp k p).typeId

theorem SameStatic.refl (mem : Mem) : SameStatic mem mem := by
  constructor <;> intros <;> rfl

theorem SameStatic.trans {a b c : Mem} (h : SameStatic a b) (h' : SameStatic b c) :
    SameStatic a c :=
  ⟨h'.nMol.trans h.nMol, h'.nAtom.trans h.nAtom, h'.nGrp.trans h.nGrp, h'.mol.trans h.mol,
    fun x => (h'.atomMol x).trans (h.atomMol x), fun x => (h'.atomType x).trans (h.atomType x),
    fun x => (h'.mask x).trans (h.mask x), fun k p => (h'.grpAtoms k p).trans (h.grpAtoms k p),
    fun k p => (h'.grpType k p).trans (h.grpType k p)⟩

theorem Layout.same {on : Kind → Bool} {masked : Bool} {sps : List Spec} {mem mem' : Mem}
    (h : Layout on masked sps mem) (hs : SameStatic mem mem') : Layout on masked sps mem' := by
  constructor
  · rw [hs.nMol, hs.mol]; exact h.mols
  · rw [hs.nMol, hs.mol]; exact h.species
  · rw [hs.nAtom, hs.nMol, hs.mol]; exact h.owner
  · rw [hs.nAtom, hs.nMol, hs.mol]
    simp only [hs.atomMol, hs.atomType]
    exact h.atoms
  · rw [hs.nMol, hs.mol, hs.nGrp]
    simp only [hs.grpAtoms, hs.grpType]
    exact h.grps
  · rw [hs.nMol, hs.mol]; exact h.disjoint
  · rw [hs.mol]; exact h.off
  · rw [hs.nMol, hs.mol]
    simp only [hs.mask]
    exact h.masks

/-- `p` is a group of molecule `M`. -/
def Real (mem : Mem) (k : Kind) (M p : ℕ) : Prop :=
  M < mem.nMol ∧ ∃ f, (mem.mol M).first k = some f ∧ f ≤ p ∧ p < f + (mem.mol M).num k

theorem Real.same {mem mem' : Mem} (hs : SameStatic mem mem') {k : Kind} {M p : ℕ} :
    Real mem' k M p ↔ Real mem k M p := by
  unfold Real; rw [hs.nMol, hs.mol]

/-- The counters are right. -/
def Counted (mem : Mem) (k : Kind) : Prop :=
  ∀ M p, Real mem k M p → (mem.grp k p).nInactive = inactiveAtoms mem (mem.grp k p)

/-- Counters of kind `k` before the change of atom `a` is taken into account for
the groups `pend` of molecule `m`. -/
def Pending (mem : Mem) (k : Kind) (d : ℤ) (pend : ℕ → Prop) [DecidablePred pend] : Prop :=
  ∀ M p, Real mem k M p → (mem.grp k p).nInactive + (if pend p then d else 0) =
    inactiveAtoms mem (mem.grp k p)

theorem inactiveAtoms_le (mem : Mem) (g : GrpRec) : inactiveAtoms mem g ≤ g.atoms.length :=
  List.countP_le_length

theorem inactiveAtoms_congr {mem mem' : Mem} {g g' : GrpRec} (hg : g'.atoms = g.atoms)
    (h : ∀ a ∈ g.atoms, (mem'.atom a).active = (mem.atom a).active) :
    inactiveAtoms mem' g' = inactiveAtoms mem g := by
  unfold inactiveAtoms
  rw [hg]
  exact List.countP_congr fun a ha => by rw [h a ha]

/-- Change of the number of inactive atoms when one flag changes. -/
theorem countP_update (l : List ℕ) (hl : l.Nodup) (f : ℕ → Bool) (a : ℕ) (b : Bool)
    (hb : f a ≠ b) :
    ((l.countP (Function.update f a b) : ℕ) : ℤ) =
      l.countP f + if a ∈ l then (if b then 1 else -1) else 0 := by
  induction l with
  | nil => simp
  | cons x l ih =>
    have hx : x ∉ l := (List.nodup_cons.mp hl).1
    have ih' := ih (List.nodup_cons.mp hl).2
    rw [List.countP_cons, List.countP_cons]
    push_cast
    rw [ih']
    by_cases hxa : a = x
    · subst hxa
      rw [Function.update_self, if_neg hx, if_pos (List.mem_cons_self ..)]
      cases b <;> cases hf : f a <;> simp_all
    · rw [Function.update_of_ne (Ne.symm hxa)]
      have : (a ∈ x :: l) ↔ a ∈ l := by simp [hxa]
      simp only [this]
      ring

/-- The loop over the groups of an atom. -/
theorem bumpLoop {mem0 : Mem} {k : Kind} {up : Bool} {m f : ℕ} (hm : m < mem0.nMol)
    (hf : (mem0.mol m).first k = some f) (hsz : ∀ p, Real mem0 k m p →
      (mem0.grp k p).atoms.length = k.size) :
    ∀ (l : List ℤ) (mem : Mem), SameStatic mem0 mem → l.Nodup →
      (∀ x ∈ l, 0 ≤ x ∧ x < ((mem0.mol m).num k : ℤ)) →
      Pending mem k (if up then 1 else -1) (fun p => ∃ x ∈ l, p = f + x.toNat) →
      ∃ mem', loop (bump up k.size m k) l mem = ok mem' ∧ SameStatic mem mem' ∧
        mem'.atom = mem.atom ∧ (∀ k', k' ≠ k → mem'.grp k' = mem.grp k') ∧ Counted mem' k := by
  intro l
  induction l with
  | nil =>
    intro mem hs _ _ hp
    refine ⟨mem, rfl, SameStatic.refl _, rfl, fun _ _ => rfl, fun M p hr => ?_⟩
    have := hp M p hr
    simpa using this
  | cons x l ih =>
    intro mem hs hnd hrange hp
    have hx := hrange x (List.mem_cons_self ..)
    have hfm : (mem.mol m).first k = some f := by rw [hs.mol]; exact hf
    have hnum : (mem.mol m).num k = (mem0.mol m).num k := by rw [hs.mol]
    set p := f + x.toNat with hpdef
    have hreal0 : Real mem0 k m p := ⟨hm, f, hf, by omega, by omega⟩
    have hreal : Real mem k m p := (Real.same hs).mpr hreal0
    have hpx := hp m p hreal
    rw [if_pos ⟨x, List.mem_cons_self .., rfl⟩] at hpx
    have hlen : (mem.grp k p).atoms.length = k.size := by rw [hs.grpAtoms]; exact hsz p hreal0
    have hle := inactiveAtoms_le mem (mem.grp k p)
    rw [hlen] at hle
    set g' : GrpRec := { mem.grp k p with
      nInactive := (mem.grp k p).nInactive + if up then 1 else -1 } with hg'
    have hb : bump up k.size m k mem x = ok (mem.setGrp k p g') := by
      unfold bump groupPtr
      rw [hfm]
      simp only []
      rw [require_true (by rw [hnum]; exact hx), ok_bind, ok_bind]
      rw [require_true, ok_bind, check_true, ok_bind]
      · exact hpx.symm
      · rw [← hpdef]
        cases up
        · simp only [Bool.false_eq_true, if_false] at hpx ⊢
          omega
        · simp only [if_true] at hpx ⊢
          omega
    have hs1 : SameStatic mem (mem.setGrp k p g') := by
      constructor <;> intros <;> try rfl
      all_goals
        rename_i k' q
        simp only [Mem.setGrp]
        by_cases hk : k' = k
        · subst hk
          rw [Function.update_self]
          by_cases hq : q = p
          · subst hq; rw [Function.update_self]
          · rw [Function.update_of_ne hq]
        · rw [Function.update_of_ne hk]
    have hother : ∀ q, q ≠ p → (mem.setGrp k p g').grp k q = mem.grp k q := fun q hq => by
      simp only [Mem.setGrp, Function.update_self]
      exact Function.update_of_ne hq _ _
    have hself : (mem.setGrp k p g').grp k p = g' := by
      simp [Mem.setGrp]
    obtain ⟨mem', e, s', a', o', c'⟩ := ih (mem.setGrp k p g') (hs.trans hs1)
      (List.nodup_cons.mp hnd).2 (fun y hy => hrange y (List.mem_cons_of_mem _ hy)) (by
        intro M q hr
        have hq := hp M q ((Real.same hs1).mp hr)
        have hin : inactiveAtoms (mem.setGrp k p g') ((mem.setGrp k p g').grp k q) =
            inactiveAtoms mem (mem.grp k q) :=
          inactiveAtoms_congr (hs1.grpAtoms k q) fun _ _ => rfl
        rw [hin]
        by_cases hqp : q = p
        · rw [hqp, hself, if_neg]
          · rw [← hpx]; simp [hg']
          · rintro ⟨y, hy, hye⟩
            have hy1 := (hrange y (List.mem_cons_of_mem _ hy)).1
            have hxy : x.toNat = y.toNat := Nat.add_left_cancel hye
            have : y = x := by
              rw [← Int.toNat_of_nonneg hy1, ← hxy, Int.toNat_of_nonneg hx.1]
            subst this
            exact (List.nodup_cons.mp hnd).1 hy
        · rw [hother q hqp, ← hq]
          congr 1
          have : (∃ y ∈ x :: l, q = f + y.toNat) ↔ ∃ y ∈ l, q = f + y.toNat := by
            constructor
            · rintro ⟨y, hy, rfl⟩
              rcases List.mem_cons.mp hy with rfl | hy
              · exact absurd rfl hqp
              · exact ⟨y, hy, rfl⟩
            · rintro ⟨y, hy, rfl⟩
              exact ⟨y, List.mem_cons_of_mem _ hy, rfl⟩
          simp only [this])
    refine ⟨mem', ?_, hs1.trans s', a', ?_, c'⟩
    · simp only [loop, hb, ok_bind]; exact e
    · intro k' hk'
      rw [o' k' hk']
      simp only [Mem.setGrp]
      exact Function.update_of_ne hk' _ _

/-- The groups of the molecule of atom `a` that contain it, and no other groups,
are listed for it. -/
theorem real_mem {on : Kind → Bool} {masked : Bool} {sps : List Spec} {mem : Mem}
    (hv : Valid sps) (h : Layout on masked sps mem) {k : Kind} (hk : on k = true) {m : ℕ}
    (hm : m < mem.nMol) {s : Spec} (hs : sps[(mem.mol m).species]? = some s) {f : ℕ}
    (hf : (mem.mol m).first k = some f) {i : ℕ} (hi : i < (mem.mol m).nAtom) {M p : ℕ}
    (hr : Real mem k M p) :
    ((mem.grp k p).atoms.Nodup ∧ (mem.grp k p).atoms.length = k.size) ∧
    ((mem.mol m).firstAtom + i ∈ (mem.grp k p).atoms ↔
      ∃ x ∈ (partOf s.sp k).ids i, p = f + x.toNat) := by
  obtain ⟨hM, f', hf', h1, h2⟩ := hr
  obtain ⟨s', hs', -⟩ := h.species M hM
  have hp := hv.part s' (List.mem_of_getElem? hs') k
  obtain ⟨f'', e1, e2, e3, e4⟩ := h.grps k hk M hM s' hs'
  obtain rfl : f'' = f' := Option.some.inj (e1.symm.trans hf')
  have hnat := h.atoms M hM s' hs'
  have hnat' := h.atoms m hm s hs
  obtain ⟨j, rfl⟩ : ∃ j, p = f'' + j := ⟨p - f'', by omega⟩
  have hlen := hp.len
  have hj : j < (partOf s'.sp k).grps.length := by omega
  set g := (partOf s'.sp k).grps[j] with hg
  have hgj : (partOf s'.sp k).grps[j]? = some g := List.getElem?_eq_getElem hj
  have hgm : g ∈ (partOf s'.sp k).grps := List.getElem_mem hj
  have hat := (e4 j g hgj).1
  refine ⟨⟨?_, ?_⟩, ?_⟩
  · rw [hat]
    refine (hp.distinct g hgm).map_on fun x hx y hy hxy => ?_
    have := hp.range g hgm x hx
    have := hp.range g hgm y hy
    omega
  · rw [hat, List.length_map]; exact hp.size g hgm
  · constructor
    · intro ha
      rw [hat] at ha
      obtain ⟨x, hx, hxe⟩ := List.mem_map.mp ha
      have hxr := hp.range g hgm x hx
      have hMm : M = m := by
        have ho := h.owner ((mem.mol m).firstAtom + i) (by omega)
        exact ho.unique ⟨hM, by omega, by omega⟩ ⟨hm, by omega, by omega⟩
      subst hMm
      obtain rfl : s' = s := Option.some.inj (hs'.symm.trans hs)
      obtain rfl : f'' = f := Option.some.inj (hf'.symm.trans hf)
      have hxi : (i : ℤ) = x := by omega
      refine ⟨(j : ℤ), ?_, by simp⟩
      rw [hp.listed i (by omega)]
      exact ⟨j, g, rfl, hgj, hxi ▸ hx⟩
    · rintro ⟨x, hx, hpx⟩
      have hps := hv.part s (List.mem_of_getElem? hs) k
      obtain ⟨j', g', rfl, hg', hig'⟩ := (hps.listed i (by omega) x).mp hx
      have hj' := (List.getElem?_eq_some_iff.mp hg').1
      have hlen' := hps.len
      obtain ⟨f1, e1', e2', e3', e4'⟩ := h.grps k hk m hm s hs
      obtain rfl : f1 = f := Option.some.inj (e1'.symm.trans hf)
      rw [Int.toNat_natCast] at hpx
      rw [hpx, (e4' j' g' hg').1]
      exact List.mem_map.mpr ⟨(i : ℤ), hig', by simp⟩

theorem setAtom_static (mem : Mem) (a : ℕ) (flag : Bool) :
    SameStatic mem (mem.setAtom a { mem.atom a with active := flag }) := by
  constructor <;> intros <;> try rfl
  all_goals
    rename_i b
    simp only [Mem.setAtom]
    by_cases hb : b = a
    · subst hb; rw [Function.update_self]
    · rw [Function.update_of_ne hb]

/-- One kind of groups. -/
theorem bumpKind_ok {on : Kind → Bool} {masked : Bool} {sps : List Spec} {mem : Mem}
    (hv : Valid sps) (h : Layout on masked sps mem) {k : Kind} {comp : Bool}
    (hc1 : on k = true → comp = true)
    (hc2 : comp = true → on k = true ∨ ∀ s ∈ sps, (partOf s.sp k).n = 0)
    {m : ℕ} (hm : m < mem.nMol) {s : Spec} (hs : sps[(mem.mol m).species]? = some s)
    {i : ℕ} (hi : i < (mem.mol m).nAtom) (up : Bool)
    (hp : ∀ M p, Real mem k M p → (mem.grp k p).nInactive +
      (if (mem.mol m).firstAtom + i ∈ (mem.grp k p).atoms then (if up then 1 else -1) else 0) =
        inactiveAtoms mem (mem.grp k p)) :
    ∃ mem', bumpKind comp up k s.sp m i mem = ok mem' ∧ SameStatic mem mem' ∧
      mem'.atom = mem.atom ∧ (∀ k', k' ≠ k → mem'.grp k' = mem.grp k') ∧ Counted mem' k := by
  have hsm := List.mem_of_getElem? hs
  by_cases hk : on k = true
  · obtain ⟨f, hf, hnum, hfb, hgr⟩ := h.grps k hk m hm s hs
    have hpart := hv.part s hsm k
    have hia : (i : ℤ) < s.sp.nAtom := by
      have := (h.atoms m hm s hs).1; omega
    unfold bumpKind
    by_cases hn : (partOf s.sp k).n = 0
    · rw [if_neg (by simp [hn])]
      refine ⟨mem, rfl, SameStatic.refl _, rfl, fun _ _ => rfl, fun M p hr => ?_⟩
      have hmem := (real_mem hv h hk hm hs hf hi hr).2
      have := hp M p hr
      rw [if_neg] at this
      · simpa using this
      · rw [hmem]
        rintro ⟨x, hx, -⟩
        obtain ⟨j, g, -, hg, -⟩ := (hpart.listed i hia x).mp hx
        have := (List.getElem?_eq_some_iff.mp hg).1
        have := hpart.len
        omega
    · rw [if_pos ⟨hc1 hk, hn⟩]
      refine bumpLoop hm hf (fun p hr => (real_mem hv h hk hm hs hf hi hr).1.2) _ mem
        (SameStatic.refl _) (hpart.once i hia) ?_ ?_
      · intro x hx
        obtain ⟨j, g, rfl, hg, -⟩ := (hpart.listed i hia x).mp hx
        have := (List.getElem?_eq_some_iff.mp hg).1
        have := hpart.len
        omega
      · intro M p hr
        have hmem := (real_mem hv h hk hm hs hf hi hr).2
        rw [← hp M p hr]
        simp only [hmem]
  · have hk' : on k = false := by simpa using hk
    have hno : ¬ (comp = true ∧ (partOf s.sp k).n ≠ 0) := by
      rintro ⟨h1, h2⟩
      rcases hc2 h1 with h3 | h3
      · exact hk h3
      · exact h2 (h3 s hsm)
    refine ⟨mem, by unfold bumpKind; rw [if_neg hno], SameStatic.refl _, rfl, fun _ _ => rfl,
      fun M p hr => ?_⟩
    obtain ⟨-, f, hf, -⟩ := hr
    rw [(h.off k hk' M).1] at hf
    cases hf

/-- One call of `deactivate` or `reactivate`. -/
theorem setActive_ok {on : Kind → Bool} {masked : Bool} {sps : List Spec} {mem : Mem}
    (hv : Valid sps) (h : Layout on masked sps mem) {comp : Kind → Bool}
    (hc1 : ∀ k, on k = true → comp k = true)
    (hc2 : ∀ k, comp k = true → on k = true ∨ ∀ s ∈ sps, (partOf s.sp k).n = 0)
    (hC : ∀ k, Counted mem k) {a : ℕ} (ha : a < mem.nAtom) {flag : Bool}
    (hflag : (mem.atom a).active ≠ flag) :
    ∃ mem', setActive comp sps a flag mem = ok mem' ∧ SameStatic mem mem' ∧
      (∀ b, (mem'.atom b).active = if b = a then flag else (mem.atom b).active) ∧
      ∀ k, Counted mem' k := by
  obtain ⟨m, ⟨hm, h1, h2⟩, -⟩ := h.owner a ha
  obtain ⟨s, hs, -⟩ := h.species m hm
  obtain ⟨i, rfl⟩ : ∃ i, a = (mem.mol m).firstAtom + i := ⟨a - (mem.mol m).firstAtom, by omega⟩
  have hi : i < (mem.mol m).nAtom := by omega
  set a := (mem.mol m).firstAtom + i with hadef
  set mem1 := mem.setAtom a { mem.atom a with active := flag } with hmem1
  have st1 : SameStatic mem mem1 := setAtom_static mem a flag
  have hact1 : ∀ b, (mem1.atom b).active = if b = a then flag else (mem.atom b).active := by
    intro b
    simp only [hmem1, Mem.setAtom]
    by_cases hb : b = a
    · subst hb; rw [Function.update_self, if_pos rfl]
    · rw [Function.update_of_ne hb, if_neg hb]
  have hpend : ∀ k M p, Real mem k M p → (mem.grp k p).nInactive +
      (if a ∈ (mem.grp k p).atoms then (if (!flag) = true then 1 else -1) else 0) =
        inactiveAtoms mem1 (mem.grp k p) := by
    intro k M p hr
    rw [hC k M p hr]
    have hon : on k = true := by
      by_contra hk
      have hk' : on k = false := by simpa using hk
      obtain ⟨-, f, hf, -⟩ := hr
      rw [(h.off k hk' M).1] at hf
      cases hf
    obtain ⟨f, hf, -⟩ := h.grps k hon m hm s hs
    have hnd := (real_mem hv h hon hm hs hf hi hr).1.1
    have := countP_update _ hnd (fun b => !(mem.atom b).active) a (!flag) (by
      intro hc
      exact hflag (by simpa using hc))
    have hfun : Function.update (fun b => !(mem.atom b).active) a (!flag) =
        fun b => !(mem1.atom b).active := by
      funext b
      rw [hact1]
      by_cases hb : b = a
      · subst hb; rw [Function.update_self, if_pos rfl]
      · rw [Function.update_of_ne hb, if_neg hb]
    rw [hfun] at this
    exact this.symm
  have hmol : (mem1.atom a).mol = some m := by
    rw [st1.atomMol]; exact ((h.atoms m hm s hs).2.2 i hi).1
  have L1 := h.same st1
  have hm1 : m < mem1.nMol := hm
  obtain ⟨mem2, e2, st2, a2, o2, c2⟩ := bumpKind_ok hv L1 (hc1 .bond) (hc2 .bond) hm1 hs hi (!flag)
    (fun M p hr => hpend .bond M p hr)
  have L2 := L1.same st2
  obtain ⟨mem3, e3, st3, a3, o3, c3⟩ := bumpKind_ok hv L2 (hc1 .angle) (hc2 .angle)
    (by rw [st2.nMol]; exact hm1) (by rw [st2.mol]; exact hs) (by rw [st2.mol]; exact hi) (!flag)
    (fun M p hr => by
      rw [o2 .angle (by decide), st2.mol]
      unfold inactiveAtoms
      rw [a2]
      exact hpend .angle M p ((Real.same (st1.trans st2)).mp hr))
  have L3 := L2.same st3
  have st13 := st2.trans st3
  obtain ⟨mem4, e4, st4, a4, o4, c4⟩ := bumpKind_ok hv L3 (hc1 .dihedral) (hc2 .dihedral)
    (by rw [st13.nMol]; exact hm1) (by rw [st13.mol]; exact hs) (by rw [st13.mol]; exact hi)
    (!flag)
    (fun M p hr => by
      rw [o3 .dihedral (by decide), o2 .dihedral (by decide), st13.mol]
      unfold inactiveAtoms
      rw [a3, a2]
      exact hpend .dihedral M p ((Real.same (st1.trans st13)).mp hr))
  refine ⟨mem4, ?_, (st1.trans st13).trans st4, ?_, ?_⟩
  · unfold setActive
    rw [check_true hflag, ok_bind]
    simp only []
    rw [← hmem1, hmol]
    simp only []
    have hs1 : sps[(mem1.mol m).species]? = some s := hs
    rw [hs1]
    simp only []
    have hsub : a - (mem1.mol m).firstAtom = i := by
      have : (mem1.mol m).firstAtom = (mem.mol m).firstAtom := rfl
      omega
    rw [hsub, e2, ok_bind, e3, ok_bind, e4]
  · intro b
    rw [a4, a3, a2]; exact hact1 b
  · intro k M p hr
    cases k with
    | bond =>
      rw [o4 .bond (by decide), o3 .bond (by decide)]
      unfold inactiveAtoms
      rw [a4, a3]
      exact c2 M p ((Real.same (st3.trans st4)).mp hr)
    | angle =>
      rw [o4 .angle (by decide)]
      unfold inactiveAtoms
      rw [a4]
      exact c3 M p ((Real.same st4).mp hr)
    | dihedral => exact c4 M p hr

/-- `activate(molecule)`. -/
theorem activate_ok {on : Kind → Bool} {masked : Bool} {sps : List Spec} {mem : Mem}
    (hv : Valid sps) (h : Layout on masked sps mem) (hC : ∀ k, Counted mem k) {m : ℕ}
    (hm : m < mem.nMol) :
    SameStatic mem (activate m mem) ∧ ∀ k, Counted (activate m mem) k := by
  have hst : SameStatic mem (activate m mem) := by
    constructor <;> intros <;> try rfl
    · simp only [activate]; split <;> rfl
    · simp only [activate]; split <;> rfl
    · simp only [activate]; split <;> rfl
    · simp only [activate]; split
      · rfl
      · split <;> rfl
    · simp only [activate]; split
      · rfl
      · split <;> rfl
  refine ⟨hst, fun k M p hr => ?_⟩
  have hr0 := (Real.same hst).mp hr
  obtain ⟨hM, f, hf, h1, h2⟩ := hr0
  have hon : on k = true := by
    by_contra hk
    have hk' : on k = false := by simpa using hk
    rw [(h.off k hk' M).1] at hf
    cases hf
  obtain ⟨s, hs, -⟩ := h.species M hM
  have hp := hv.part s (List.mem_of_getElem? hs) k
  obtain ⟨f', e1, e2, e3, e4⟩ := h.grps k hon M hM s hs
  obtain rfl : f' = f := Option.some.inj (e1.symm.trans hf)
  have hnat := h.atoms M hM s hs
  -- atoms of the group are atoms of its molecule
  have hin : ∀ b ∈ (mem.grp k p).atoms, (mem.mol M).firstAtom ≤ b ∧
      b < (mem.mol M).firstAtom + (mem.mol M).nAtom := by
    intro b hb
    have hlen := hp.len
    have hj : p - f' < (partOf s.sp k).grps.length := by omega
    have hat := (e4 (p - f') _ (List.getElem?_eq_getElem hj)).1
    rw [show f' + (p - f') = p by omega] at hat
    rw [hat] at hb
    obtain ⟨x, hx, rfl⟩ := List.mem_map.mp hb
    have := hp.range _ (List.getElem_mem hj) x hx
    omega
  by_cases hMm : M = m
  · subst hMm
    have hz : (((activate M mem).grp k p).nInactive) = 0 := by
      simp only [activate, hf, if_pos (show f' ≤ p ∧ p < f' + (mem.mol M).num k from ⟨h1, h2⟩)]
    rw [hz]
    have : inactiveAtoms (activate M mem) ((activate M mem).grp k p) = 0 := by
      unfold inactiveAtoms
      rw [List.countP_eq_zero]
      intro b hb
      rw [hst.grpAtoms] at hb
      have hb' := hin b hb
      simp only [activate, if_pos hb', Bool.not_true, Bool.false_eq_true, not_false_iff]
    rw [this]; rfl
  · have hg : (activate m mem).grp k p = mem.grp k p := by
      simp only [activate]
      split
      · rfl
      · rename_i f0 hf0
        rw [if_neg]
        intro hc
        exact h.disjoint k hon M hM m hm hMm f' f0 hf hf0 p ⟨⟨h1, h2⟩, hc⟩
    rw [hg, hC k M p ⟨hM, f', hf, h1, h2⟩]
    congr 1
    refine (inactiveAtoms_congr rfl fun b hb => ?_).symm
    have hb' := hin b hb
    simp only [activate]
    rw [if_neg]
    intro hc
    exact hMm ((h.owner b (by omega)).unique ⟨hM, hb'⟩ ⟨hm, hc⟩)

/-! ### Histories -/

/-- Calls of the functions of `Activate`, for an atom or a molecule. -/
inductive Op where
  | deactivate (a : ℕ)
  | reactivate (a : ℕ)
  | activate (m : ℕ)

/-- The atom or molecule exists. -/
def Op.Exists (mem : Mem) : Op → Prop
  | .deactivate a => a < mem.nAtom
  | .reactivate a => a < mem.nAtom
  | .activate m => m < mem.nMol

def step (comp : Kind → Bool) (sps : List Spec) (mem : Mem) : Op → Out Mem
  | .deactivate a => setActive comp sps a false mem
  | .reactivate a => setActive comp sps a true mem
  | .activate m => ok (activate m mem)

/-- A sequence of calls; a caller catches an exception and continues.
(`deactivate` and `reactivate` throw before any change.) -/
def runOps (comp : Kind → Bool) (sps : List Spec) : List Op → Mem → Out Mem
  | [], mem => ok mem
  | o :: os, mem =>
    match step comp sps mem o with
    | .ok mem' => runOps comp sps os mem'
    | .throw => runOps comp sps os mem
    | .ub => .ub

/-- Specification: which atoms are active. -/
def wanted (mem : Mem) (act : ℕ → Bool) : Op → ℕ → Bool
  | .deactivate a => fun b => if b = a then false else act b
  | .reactivate a => fun b => if b = a then true else act b
  | .activate m => fun b =>
      if (mem.mol m).firstAtom ≤ b ∧ b < (mem.mol m).firstAtom + (mem.mol m).nAtom then true
      else act b

theorem run_ok {on : Kind → Bool} {masked : Bool} {sps : List Spec} {mem0 : Mem}
    (hv : Valid sps) (h0 : Layout on masked sps mem0) {comp : Kind → Bool}
    (hc1 : ∀ k, on k = true → comp k = true)
    (hc2 : ∀ k, comp k = true → on k = true ∨ ∀ s ∈ sps, (partOf s.sp k).n = 0) :
    ∀ (ops : List Op) (mem : Mem) (act : ℕ → Bool), SameStatic mem0 mem →
      (∀ k, Counted mem k) → (∀ b, (mem.atom b).active = act b) →
      (∀ o ∈ ops, o.Exists mem0) →
      ∃ mem', runOps comp sps ops mem = ok mem' ∧ SameStatic mem0 mem' ∧
        (∀ k, Counted mem' k) ∧ ∀ b, (mem'.atom b).active = ops.foldl (wanted mem0) act b := by
  intro ops
  induction ops with
  | nil => exact fun mem act hs hC ha _ => ⟨mem, rfl, hs, hC, ha⟩
  | cons o os ih =>
    intro mem act hs hC ha ho
    have hex := ho o (List.mem_cons_self ..)
    have hos : ∀ o ∈ os, o.Exists mem0 := fun o h => ho o (List.mem_cons_of_mem _ h)
    have hL := h0.same hs
    have hset : ∀ a flag, a < mem0.nAtom →
        (∀ b, wanted mem0 act o b = if b = a then flag else act b) →
        step comp sps mem o = setActive comp sps a flag mem →
        ∃ mem', runOps comp sps (o :: os) mem = ok mem' ∧ SameStatic mem0 mem' ∧
        (∀ k, Counted mem' k) ∧
        ∀ b, (mem'.atom b).active = (o :: os).foldl (wanted mem0) act b := by
      intro a flag hlt hw hst
      simp only [runOps, List.foldl_cons]
      rw [hst]
      by_cases hf : (mem.atom a).active = flag
      · have : setActive comp sps a flag mem = throw := by
          unfold setActive; rw [check_false (by simp [hf]), throw_bind]
        rw [this]
        refine ih mem _ hs hC (fun b => ?_) hos
        rw [hw b, ← ha b]
        by_cases hb : b = a
        · subst hb; rw [if_pos rfl]; exact hf
        · rw [if_neg hb]
      · obtain ⟨mem1, e1, s1, a1, c1⟩ := setActive_ok hv hL hc1 hc2 hC
          (by rw [hs.nAtom]; exact hlt) hf
        rw [e1]
        refine ih mem1 _ (hs.trans s1) c1 (fun b => ?_) hos
        rw [a1 b, hw b, ha b]
    cases o with
    | deactivate a => exact hset a false hex (fun _ => rfl) rfl
    | reactivate a => exact hset a true hex (fun _ => rfl) rfl
    | activate m =>
      have hm : m < mem.nMol := by rw [hs.nMol]; exact hex
      obtain ⟨s1, c1⟩ := activate_ok hv hL hC hm
      simp only [runOps, step, List.foldl_cons]
      refine ih (activate m mem) _ (hs.trans s1) c1 (fun b => ?_) hos
      simp only [wanted, activate]
      rw [hs.mol]
      split
      · rfl
      · exact ha b

/-- C36: after initialization and any sequence of activations and deactivations
of existing atoms and molecules, an atom is active exactly if the last call that
concerns it activated it, the counter of each group of each molecule is the
number of its inactive atoms, and no assertion or array bound is violated.
`comp k` says that groups of kind `k` are compiled in; a kind that is compiled
in but has no types must not occur in any species. -/
theorem C36_counters (on comp : Kind → Bool) (masked : Bool) (sps : List Spec) (hv : Valid sps)
    (hs : masked = true → on .bond = true → ∀ s ∈ sps, Simple s)
    (hc1 : ∀ k, on k = true → comp k = true)
    (hc2 : ∀ k, comp k = true → on k = true ∨ ∀ s ∈ sps, (partOf s.sp k).n = 0) :
    ∃ mem slots, initData on masked sps = ok (mem, slots) ∧
      ∀ ops : List Op, (∀ o ∈ ops, o.Exists mem) →
      ∃ mem', runOps comp sps ops mem = ok mem' ∧ mem'.mol = mem.mol ∧
        (∀ k p, (mem'.grp k p).atoms = (mem.grp k p).atoms) ∧
        (∀ b, (mem'.atom b).active = ops.foldl (wanted mem) (fun _ => true) b) ∧
        ∀ k, ∀ M < mem.nMol, ∀ f, (mem.mol M).first k = some f → ∀ i < (mem.mol M).num k,
          (mem'.grp k (f + i)).nInactive =
            ((mem'.grp k (f + i)).atoms.filter fun b => !(mem'.atom b).active).length ∧
          ((mem'.grp k (f + i)).nInactive = 0 ↔
            ∀ b ∈ (mem'.grp k (f + i)).atoms, (mem'.atom b).active = true) := by
  obtain ⟨mem, l, e, hl⟩ := C35_layout on masked sps hv hs
  refine ⟨mem, l, e, fun ops ho => ?_⟩
  have hC : ∀ k, Counted mem k := by
    intro k M p _
    rw [hl.inactive, inactiveAtoms, List.countP_eq_zero.mpr]
    · rfl
    · intro b _; rw [hl.active]; simp
  obtain ⟨mem', e', s', c', a'⟩ := run_ok hv hl.toLayout hc1 hc2 ops mem _ (SameStatic.refl _) hC
    hl.active ho
  refine ⟨mem', e', s'.mol, s'.grpAtoms, a', fun k M hM f hf i hi => ?_⟩
  have := c' k M (f + i) ((Real.same s').mpr ⟨hM, f, hf, by omega, by omega⟩)
  unfold inactiveAtoms at this
  refine ⟨by rw [this, List.countP_eq_length_filter], ?_⟩
  rw [this]
  constructor
  · intro hz b hb
    have hz' : List.countP (fun a => !(mem'.atom a).active) (mem'.grp k (f + i)).atoms = 0 := by
      exact_mod_cast hz
    simpa using List.countP_eq_zero.mp hz' b hb
  · intro hall
    rw [List.countP_eq_zero.mpr]
    · rfl
    · intro b hb; simp [hall b hb]

/-- Deactivation of the second atom of a trimer with two bonds, then of the
third atom, then reactivation of the second. -/
example : (do
    let (mem, _) ← initData (fun k => k == .bond) false
      [⟨0, 2, ⟨3, [0, 0, 0], ⟨2, [⟨[0, 1], 0⟩, ⟨[1, 2], 0⟩],
        Species.regIds (fun i => [(i : ℤ), i + 1]) 2⟩, .none, .none⟩⟩]
    let mem ← runOps (fun k => k == .bond) [⟨0, 2, ⟨3, [0, 0, 0], ⟨2, [⟨[0, 1], 0⟩, ⟨[1, 2], 0⟩],
        Species.regIds (fun i => [(i : ℤ), i + 1]) 2⟩, .none, .none⟩⟩]
      [.deactivate 4, .deactivate 5, .deactivate 4, .reactivate 4] mem
    ok ((List.range 4).map fun p => (mem.grp .bond p).nInactive)) = ok [0, 0, 0, 1] := rfl

/-- A species with bonds in a simulation without bond types, which
initialization accepts: deactivation of an atom dereferences the null pointer
to the first bond. -/
theorem C36_disabled_kind_ub :
    ∃ mem slots, initData (fun _ => false) false exSps = ok (mem, slots) ∧
      setActive (fun _ => true) exSps 0 false mem = ub :=
  ⟨_, _, rfl, rfl⟩

example : ∃ mem slots, initData (fun k => k == .bond) true exSps = ok (mem, slots) ∧
    ∀ ops : List Op, (∀ o ∈ ops, o.Exists mem) →
      ∃ mem', runOps (fun _ => true) exSps ops mem = ok mem' := by
  obtain ⟨mem, l, e, h⟩ := C36_counters (fun k => k == .bond) (fun _ => true) true exSps exSps_valid
    (fun _ _ => exSps_simple) (fun _ _ => rfl) (by
      intro k _
      cases k
      · exact Or.inl rfl
      · right; intro s hs; simp only [exSps, List.mem_cons, List.not_mem_nil, or_false] at hs
        rcases hs with rfl | rfl <;> rfl
      · right; intro s hs; simp only [exSps, List.mem_cons, List.not_mem_nil, or_false] at hs
        rcases hs with rfl | rfl <;> rfl)
  exact ⟨mem, l, e, fun ops ho => let ⟨mem', h', _⟩ := h ops ho; ⟨mem', h'⟩⟩

end Verif.McMem
