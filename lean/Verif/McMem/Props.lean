/-
C35: global memory blocks of molecules, atoms and covalent groups.
-/
import Verif.McMem.Init
import Verif.Species.Linear

set_option autoImplicit false

namespace Verif.McMem

open Verif.Cpp
open Verif.Cpp.Out
open Verif.Species (Sp Part Grp nullGrp PartOK)
open Finset (range)

/-! ### Specification -/

/-- What a user may rely on after the arrays are initialized.  No definition of
the model but the record types is used. -/
structure Layout (on : Kind → Bool) (masked : Bool) (sps : List Spec) (mem : Mem) : Prop where
  /-- one molecule for each species and each index below its capacity -/
  mols : ∀ (k : ℕ) (s : Spec), sps[k]? = some s → ∀ i : ℕ, (i : ℤ) < s.capacity →
    ∃! M, M < mem.nMol ∧ (mem.mol M).species = k ∧ (mem.mol M).id = i
  /-- and no others -/
  species : ∀ M < mem.nMol, ∃ s, sps[(mem.mol M).species]? = some s ∧
    ((mem.mol M).id : ℤ) < s.capacity
  /-- each atom is in exactly one molecule, which it points to -/
  owner : ∀ a < mem.nAtom, ∃! M, M < mem.nMol ∧
    (mem.mol M).firstAtom ≤ a ∧ a < (mem.mol M).firstAtom + (mem.mol M).nAtom
  /-- the atoms of a molecule are those of its species -/
  atoms : ∀ M < mem.nMol, ∀ s, sps[(mem.mol M).species]? = some s →
    ((mem.mol M).nAtom : ℤ) = s.sp.nAtom ∧
    (mem.mol M).firstAtom + (mem.mol M).nAtom ≤ mem.nAtom ∧
    ∀ i < (mem.mol M).nAtom, (mem.atom ((mem.mol M).firstAtom + i)).mol = some M ∧
      (mem.atom ((mem.mol M).firstAtom + i)).typeId = s.sp.types.getD i (-1)
  /-- the groups of a molecule are those of its species, shifted -/
  grps : ∀ k, on k = true → ∀ M < mem.nMol, ∀ s, sps[(mem.mol M).species]? = some s →
    ∃ f, (mem.mol M).first k = some f ∧ ((mem.mol M).num k : ℤ) = (partOf s.sp k).n ∧
      f + (mem.mol M).num k ≤ mem.nGrp k ∧
      ∀ (i : ℕ) (g : Grp), (partOf s.sp k).grps[i]? = some g →
        (mem.grp k (f + i)).atoms = g.atoms.map (fun a => (mem.mol M).firstAtom + a.toNat) ∧
        (mem.grp k (f + i)).typeId = g.typeId
  /-- blocks of groups of two molecules are disjoint -/
  disjoint : ∀ k, on k = true → ∀ M < mem.nMol, ∀ M' < mem.nMol, M ≠ M' → ∀ f f',
    (mem.mol M).first k = some f → (mem.mol M').first k = some f' →
    ∀ p, ¬ ((f ≤ p ∧ p < f + (mem.mol M).num k) ∧ (f' ≤ p ∧ p < f' + (mem.mol M').num k))
  /-- kinds without types have no groups in any molecule -/
  off : ∀ k, on k = false → ∀ M, (mem.mol M).first k = none ∧ (mem.mol M).num k = 0
  /-- an atom masks exactly the atoms that share a bond with it -/
  masks : ∀ M < mem.nMol, ∀ s, sps[(mem.mol M).species]? = some s → ∀ i < (mem.mol M).nAtom,
    ∀ b, b ∈ (mem.atom ((mem.mol M).firstAtom + i)).mask ↔
      masked = true ∧ on .bond = true ∧
        ∃ j : ℕ, b = (mem.mol M).firstAtom + j ∧ j ≠ i ∧
          ∃ g ∈ s.sp.bonds.grps, (i : ℤ) ∈ g.atoms ∧ (j : ℤ) ∈ g.atoms

/-- Moreover, everything is active initially. -/
structure Laid (on : Kind → Bool) (masked : Bool) (sps : List Spec) (mem : Mem) : Prop extends
    Layout on masked sps mem where
  active : ∀ a, (mem.atom a).active = true
  inactive : ∀ k p, (mem.grp k p).nInactive = 0

/-! ### Proof -/

theorem prefix_unique (f : ℕ → ℕ) (n a : ℕ) (h : a < ∑ j ∈ range n, f j) :
    ∃! M, M < n ∧ ∑ j ∈ range M, f j ≤ a ∧ a < (∑ j ∈ range M, f j) + f M := by
  have hex : ∃ M, M < n ∧ ∑ j ∈ range M, f j ≤ a ∧ a < (∑ j ∈ range M, f j) + f M := by
    induction n with
    | zero => simp at h
    | succ n ih =>
      by_cases hc : a < ∑ j ∈ range n, f j
      · obtain ⟨M, h1, h2⟩ := ih hc
        exact ⟨M, by omega, h2⟩
      · refine ⟨n, by omega, by omega, ?_⟩
        rwa [Finset.sum_range_succ] at h
  obtain ⟨M, hM⟩ := hex
  refine ⟨M, hM, fun M' hM' => ?_⟩
  rcases Nat.lt_trichotomy M M' with h1 | h1 | h1
  · have := sum_le_sum_lt h1 f; omega
  · exact h1.symm
  · have := sum_le_sum_lt h1 f; omega

theorem Chain.cover {on : Kind → Bool} {sps : List Spec} {i : ℕ} {t tt : Total} {l : List Slot}
    (h : Chain on sps i t l tt) : ∀ M, t.nm ≤ M → M < tt.nm →
      ∃ sl ∈ l, ∃ j < sl.s.capacity.toNat, M = sl.fm + j := by
  induction h with
  | nil t => intro M h1 h2; omega
  | cons t tt sl l hk hm ha hg h ih =>
    intro M h1 h2
    by_cases hc : M < t.nm + sl.s.capacity.toNat
    · exact ⟨sl, List.mem_cons_self .., M - t.nm, by omega, by omega⟩
    · obtain ⟨sl', h3, h4⟩ := ih M (by simp only []; omega) h2
      exact ⟨sl', List.mem_cons_of_mem _ h3, h4⟩

theorem Chain.idx_ge {on : Kind → Bool} {sps : List Spec} {i : ℕ} {t tt : Total} {l : List Slot}
    (h : Chain on sps i t l tt) : ∀ sl ∈ l, i ≤ sl.idx := by
  induction h with
  | nil t => simp
  | cons t tt sl l hk hm ha hg h ih =>
    intro sl' h'
    rcases List.mem_cons.mp h' with rfl | h'
    · exact le_rfl
    · have := ih sl' h'; omega

theorem Chain.idx_inj {on : Kind → Bool} {sps : List Spec} {i : ℕ} {t tt : Total} {l : List Slot}
    (h : Chain on sps i t l tt) : ∀ sl ∈ l, ∀ sl' ∈ l, sl.idx = sl'.idx → sl = sl' := by
  induction h with
  | nil t => simp
  | cons t tt sl l hk hm ha hg h ih =>
    intro s1 h1 s2 h2 he
    have hge := h.idx_ge
    rcases List.mem_cons.mp h1 with k1 | k1 <;> rcases List.mem_cons.mp h2 with k2 | k2
    · rw [k1, k2]
    · have := hge s2 k2; rw [k1] at he; omega
    · have := hge s1 k1; rw [k2] at he; omega
    · exact ih s1 k1 s2 k2 he

theorem Chain.slot {on : Kind → Bool} {sps : List Spec} {i : ℕ} {t tt : Total} {l : List Slot}
    (h : Chain on sps i t l tt) : ∀ k, i ≤ k → ∀ s, sps[k]? = some s →
      ∃ sl ∈ l, sl.idx = k ∧ sl.s = s := by
  induction h with
  | nil t =>
    intro k hk s hs
    have := (List.getElem?_eq_some_iff.mp hs).1
    omega
  | cons t tt sl l hk hm ha hg h ih =>
    intro k hik s hs
    by_cases hc : k = sl.idx
    · subst hc
      exact ⟨sl, List.mem_cons_self .., rfl, Option.some.inj (hk.symm.trans hs)⟩
    · obtain ⟨sl', h1, h2⟩ := ih k (by omega) s hs
      exact ⟨sl', List.mem_cons_of_mem _ h1, h2⟩

theorem Chain.bound {on : Kind → Bool} {sps : List Spec} {i : ℕ} {t tt : Total} {l : List Slot}
    (h : Chain on sps i t l tt) : ∀ sl ∈ l, sl.fm + sl.s.capacity.toNat ≤ tt.nm := by
  induction h with
  | nil t => simp
  | cons t tt sl l hk hm ha hg h ih =>
    intro s1 h1
    have hle := h.le
    simp only at hle
    rcases List.mem_cons.mp h1 with rfl | h1
    · omega
    · exact ih s1 h1

theorem Chain.get {on : Kind → Bool} {sps : List Spec} {i : ℕ} {t tt : Total} {l : List Slot}
    (h : Chain on sps i t l tt) : ∀ sl ∈ l, sps[sl.idx]? = some sl.s := by
  induction h with
  | nil t => simp
  | cons t tt sl l hk hm ha hg h ih =>
    intro s1 h1
    rcases List.mem_cons.mp h1 with rfl | h1
    · exact hk
    · exact ih s1 h1

theorem mem_partners {gs : List Grp} (hsz : ∀ g ∈ gs, g.atoms.length = 2)
    (hd : ∀ g ∈ gs, g.atoms.Nodup) (i j : ℤ) :
    j ∈ partners gs i ↔ j ≠ i ∧ ∃ g ∈ gs, i ∈ g.atoms ∧ j ∈ g.atoms := by
  have key : ∀ g ∈ gs, (j ∈ partners [g] i ↔ j ≠ i ∧ i ∈ g.atoms ∧ j ∈ g.atoms) := by
    intro g hg
    obtain ⟨x, y, hxy⟩ := List.length_eq_two.mp (hsz g hg)
    rw [partners_single g x y i hxy, hxy]
    have hne := hd g hg
    rw [hxy] at hne
    have hne' : x ≠ y := by simpa using hne
    simp only [List.mem_append, List.mem_cons, List.not_mem_nil, or_false]
    constructor
    · rintro (h | h)
      · split at h
        · rename_i hx
          simp only [List.mem_singleton] at h
          subst hx h
          exact ⟨fun hc => hne' hc.symm, Or.inl rfl, Or.inr rfl⟩
        · simp at h
      · split at h
        · rename_i hx
          simp only [List.mem_singleton] at h
          subst hx h
          exact ⟨hne', Or.inr rfl, Or.inl rfl⟩
        · simp at h
    · rintro ⟨h1, rfl | rfl, rfl | rfl⟩
      · exact absurd rfl h1
      · left; simp
      · right; simp
      · exact absurd rfl h1
  have : ∀ g, (j ∈ match g.atoms with
      | [x, y] => (if x = i then [y] else []) ++ (if y = i then [x] else [])
      | _ => []) ↔ j ∈ partners [g] i := by
    intro g
    simp only [partners, List.flatMap_cons, List.flatMap_nil, List.append_nil]
    exact Iff.rfl
  constructor
  · intro h
    obtain ⟨g, hg, hx⟩ := List.mem_flatMap.mp h
    obtain ⟨h1, h2, h3⟩ := (key g hg).mp ((this g).mp hx)
    exact ⟨h1, g, hg, h2, h3⟩
  · rintro ⟨h1, g, hg, h2, h3⟩
    exact List.mem_flatMap.mpr ⟨g, hg, (this g).mpr ((key g hg).mpr ⟨h1, h2, h3⟩)⟩

/-- State after the loops over the kinds in `done`. -/
structure Mid (on : Kind → Bool) (masked : Bool) (sps : List Spec) (t : Total) (l : List Slot)
    (done : Kind → Bool) (mem : Mem) : Prop where
  nMol : mem.nMol = t.nm
  nAtom : mem.nAtom = t.na
  nGrp : ∀ k, on k = true → t.ng k ≤ mem.nGrp k
  atoms : AtomsOK sps mem t.nm t.na
  blocks : Blocks mem l
  grps : ∀ k, done k = true → on k = true → GrpsOK k sps mem t.nm (t.ng k)
  off : ∀ k, done k = false ∨ on k = false → ∀ M, (mem.mol M).first k = none ∧ (mem.mol M).num k = 0
  masks : MasksOK (masked && on .bond && done .bond) sps mem t.nm t.na
  active : ∀ a, (mem.atom a).active = true
  inactive : ∀ k p, (mem.grp k p).nInactive = 0

theorem initKindIf_ok {on : Kind → Bool} {masked : Bool} {sps : List Spec}
    (hpt : ∀ s ∈ sps, ∀ k, PartOK k.size s.sp.nAtom (partOf s.sp k))
    (hs : masked = true → on .bond = true → ∀ s ∈ sps, Simple s)
    {tt : Total} {l : List Slot} (hc : Chain on sps 0 ⟨0, 0, fun _ => 0⟩ l tt)
    {done : Kind → Bool} {mem : Mem} (h : Mid on masked sps tt l done mem) (k : Kind)
    (hk : done k = false) :
    ∃ mem', initKindIf (on k) masked k l mem = ok mem' ∧
      Mid on masked sps tt l (Function.update done k true) mem' := by
  unfold initKindIf
  by_cases hon : on k = true
  · rw [if_pos hon]
    have hmk : masks masked k = true → masked = true ∧ k = .bond := masks_on
    have h00 : MasksOK (masks masked k) sps mem 0 0 ∨ masks masked k = false := by
      by_cases hm : masks masked k = true
      · left
        refine ⟨fun M hM => absurd hM (by omega), fun a _ => ?_⟩
        obtain ⟨rfl, rfl⟩ := masks_on hm
        -- before the bonds all masks are empty
        have hm0 := h.masks
        rw [hk] at hm0
        simp only [Bool.and_false] at hm0
        by_cases ha : tt.na ≤ a
        · exact hm0.2 a ha
        · have : a < ∑ j ∈ range tt.nm, (mem.mol j).nAtom := by rw [← h.atoms.total]; omega
          obtain ⟨M, ⟨h1, h2, h3⟩, -⟩ := prefix_unique _ _ _ this
          obtain ⟨s, e1, -⟩ := h.atoms.atoms M h1
          have hf := h.atoms.first M h1
          have := hm0.1 M h1 s e1 (a - (mem.mol M).firstAtom) (by omega)
          rw [show (mem.mol M).firstAtom + (a - (mem.mol M).firstAtom) = a by omega] at this
          simpa using this
      · right; simpa using hm
    obtain ⟨mem', e, g1, s1, m1, o1⟩ := allKind_ok (masked := masked) hon (fun s hs => hpt s hs k)
      (fun hm => by
        obtain ⟨h1, h2⟩ := masks_on hm
        exact hs h1 (h2 ▸ hon)) hc mem h.atoms h.nMol.ge h.nAtom.ge le_rfl (h.nGrp k hon) h.blocks
      (by simp) ⟨by simp, fun M hM => absurd hM (by simp), fun M hM => absurd hM (by simp)⟩ h00
    refine ⟨mem', e, ?_⟩
    have hne : ∀ l, Function.update done k true l = true → l ≠ k → done l = true := by
      intro l hl hlk; rwa [Function.update_of_ne hlk] at hl
    constructor
    · rw [s1.nMol]; exact h.nMol
    · rw [s1.nAtom]; exact h.nAtom
    · rw [s1.nGrp]; exact h.nGrp
    · exact h.atoms.same s1
    · intro sl hsl j hj
      rw [s1.species, s1.id]; exact h.blocks sl hsl j hj
    · intro l hl hol
      by_cases hlk : l = k
      · subst hlk; exact g1
      · exact (h.grps l (hne l hl hlk) hol).same hlk s1
    · intro l hl M
      have hlk : l ≠ k := by
        rintro rfl
        rcases hl with hl | hl
        · simp at hl
        · rw [hon] at hl; cases hl
      rw [Function.update_of_ne hlk] at hl
      rw [s1.nums M l hlk, s1.firsts M l hlk]
      exact h.off l hl M
    · by_cases hm : masks masked k = true
      · obtain ⟨rfl, rfl⟩ := masks_on hm
        have := m1.resolve_right (by rw [hm]; simp)
        rw [hm] at this
        simpa [hon] using this
      · have hoff : masks masked k = false := by simpa using hm
        have hb : (masked && on .bond && Function.update done k true .bond) =
            (masked && on .bond && done .bond) := by
          by_cases hkb : k = .bond
          · subst hkb
            have : masked = false := by cases masked <;> simp_all [masks]
            simp [this]
          · rw [Function.update_of_ne (Ne.symm hkb)]
        rw [hb]
        have hm0 := h.masks
        constructor
        · intro M hM s hs' i hi
          rw [s1.species] at hs'
          rw [s1.num] at hi
          rw [s1.firstAtom, o1 hoff]
          exact hm0.1 M hM s hs' i hi
        · intro a ha
          rw [o1 hoff]; exact hm0.2 a ha
    · intro a; rw [s1.active]; exact h.active a
    · intro l p
      by_cases hlk : l = k
      · subst hlk; rw [s1.inactive]; exact h.inactive l p
      · rw [s1.grp l hlk]; exact h.inactive l p
  · rw [if_neg hon]
    have hoff : on k = false := by simpa using hon
    refine ⟨mem, rfl, h.nMol, h.nAtom, h.nGrp, h.atoms, h.blocks, ?_, ?_, ?_, h.active, h.inactive⟩
    · intro l hl hol
      have hlk : l ≠ k := by rintro rfl; rw [hol] at hoff; cases hoff
      rw [Function.update_of_ne hlk] at hl
      exact h.grps l hl hol
    · intro l hl
      by_cases hlk : l = k
      · subst hlk; exact h.off l (Or.inr hoff)
      · rw [Function.update_of_ne hlk] at hl; exact h.off l hl
    · have hb : (masked && on .bond && Function.update done k true .bond) =
            (masked && on .bond && done .bond) := by
        by_cases hkb : k = .bond
        · subst hkb; simp [hoff]
        · rw [Function.update_of_ne (Ne.symm hkb)]
      rw [hb]; exact h.masks

/-- Everything known after initialization. -/
theorem initData_ok {on : Kind → Bool} {masked : Bool} {sps : List Spec} (hv : Valid sps)
    (hs : masked = true → on .bond = true → ∀ s ∈ sps, Simple s) :
    ∃ mem l tt, initData on masked sps = ok (mem, l) ∧ Chain on sps 0 ⟨0, 0, fun _ => 0⟩ l tt ∧
      Mid on masked sps tt l (fun _ => true) mem := by
  obtain ⟨l, tt, el, hc⟩ := layout_chain on sps hv.id hv.capacity sps 0 ⟨0, 0, fun _ => 0⟩ rfl
    (Nat.zero_le _)
  set mem0 : Mem := ⟨tt.nm, tt.na, fun k => if on k then max 1 (tt.ng k) else 0,
    fun _ => MolRec.new, fun _ => AtomRec.new, fun _ _ => GrpRec.new⟩ with hmem0
  obtain ⟨mem1, e1, a1, r1, -, b1⟩ := allMols_ok hc mem0
    ⟨by simp, fun M hM => absurd hM (by simp), fun M hM => absurd hM (by simp)⟩ le_rfl le_rfl
  have hnum : ∀ k M, (mem1.mol M).first k = none ∧ (mem1.mol M).num k = 0 := by
    have : ∀ (l : List Slot) (m m' : Mem), loop initMols l m = ok m' → ∀ k M,
        (m'.mol M).first k = (m.mol M).first k ∧ (m'.mol M).num k = (m.mol M).num k := by
      have hmol : ∀ (i : ℕ) (sp : Sp) (st st' : Mem × ℕ × ℕ) (x : ℕ), molStep i sp st x = ok st' →
          ∀ k M, (st'.1.mol M).first k = (st.1.mol M).first k ∧
            (st'.1.mol M).num k = (st.1.mol M).num k := by
        intro i sp st st' x h k M
        simp only [molStep] at h
        obtain ⟨_, h1, h⟩ := bind_eq_ok.mp h
        obtain ⟨⟨m2, a2⟩, h2, h⟩ := bind_eq_ok.mp h
        have hat : ∀ (l : List ℕ) (p q : Mem × ℕ), loop (atomStep st.2.1 sp.types) l p = ok q →
            q.1.mol = p.1.mol := by
          intro l
          induction l with
          | nil => intro p q h; cases h; rfl
          | cons y ys ih =>
            intro p q h
            simp only [loop] at h
            obtain ⟨p1, h1, h⟩ := bind_eq_ok.mp h
            simp only [atomStep] at h1
            obtain ⟨_, -, h1⟩ := bind_eq_ok.mp h1
            cases h1
            have h4 := ih _ _ h
            exact h4
        have h3 := hat _ _ _ h2
        cases h
        simp only at h3 ⊢
        rw [h3]
        simp only [Mem.setMol]
        by_cases hM : M = st.2.1
        · subst hM; rw [Function.update_self]; exact ⟨rfl, rfl⟩
        · rw [Function.update_of_ne hM]; exact ⟨rfl, rfl⟩
      have hmols : ∀ (i : ℕ) (sp : Sp) (l : List ℕ) (st st' : Mem × ℕ × ℕ),
          loop (molStep i sp) l st = ok st' →
          ∀ k M, (st'.1.mol M).first k = (st.1.mol M).first k ∧
            (st'.1.mol M).num k = (st.1.mol M).num k := by
        intro i sp l
        induction l with
        | nil => intro st st' h k M; cases h; exact ⟨rfl, rfl⟩
        | cons y ys ih =>
          intro st st' h k M
          simp only [loop] at h
          obtain ⟨p1, h1, h⟩ := bind_eq_ok.mp h
          have g1 := hmol _ _ _ _ _ h1 k M
          have g2 := ih _ _ h k M
          exact ⟨g2.1.trans g1.1, g2.2.trans g1.2⟩
      intro l
      induction l with
      | nil => intro m m' h k M; cases h; exact ⟨rfl, rfl⟩
      | cons y ys ih =>
        intro m m' h k M
        simp only [loop] at h
        obtain ⟨p1, h1, h⟩ := bind_eq_ok.mp h
        simp only [initMols] at h1
        obtain ⟨⟨m2, a2, a3⟩, h2, h1⟩ := bind_eq_ok.mp h1
        cases h1
        have g1 := hmols _ _ _ _ _ h2 k M
        have g2 := ih _ _ h k M
        exact ⟨g2.1.trans g1.1, g2.2.trans g1.2⟩
    intro k M
    have := this l mem0 mem1 e1 k M
    exact this
  have hmid : Mid on masked sps tt l (fun _ => false) mem1 := by
    refine ⟨r1.nMol, r1.nAtom, ?_, a1, b1, fun k h => absurd h (by simp), fun k _ M => hnum k M,
      ?_, fun a => ?_, fun k p => ?_⟩
    · intro k hk; rw [r1.nGrp, hmem0]; simp only [hk, if_true]; exact le_max_right _ _
    · constructor
      · intro M hM s hs' i hi
        rw [r1.mask]
        simp [hmem0, AtomRec.new]
      · intro a _; rw [r1.mask]; rfl
    · rw [r1.active]; rfl
    · rw [r1.grp]; rfl
  obtain ⟨mem2, e2, h2⟩ := initKindIf_ok hv.part hs hc hmid .bond rfl
  obtain ⟨mem3, e3, h3⟩ := initKindIf_ok hv.part hs hc h2 .angle (by simp)
  obtain ⟨mem4, e4, h4⟩ := initKindIf_ok hv.part hs hc h3 .dihedral (by simp)
  have hdone : Function.update (Function.update (Function.update (fun _ => false) Kind.bond true)
      Kind.angle true) Kind.dihedral true = fun _ => true := by
    funext k; cases k <;> simp
  rw [hdone] at h4
  refine ⟨mem4, l, tt, ?_, hc, h4⟩
  unfold initData
  rw [check_true hv.nonempty, ok_bind, el, ok_bind]
  simp only []
  rw [← hmem0, e1, ok_bind, e2, ok_bind, e3, ok_bind, e4, ok_bind]

theorem Mid.laid {on : Kind → Bool} {masked : Bool} {sps : List Spec} (hv : Valid sps)
    {tt : Total} {l : List Slot} (hc : Chain on sps 0 ⟨0, 0, fun _ => 0⟩ l tt) {mem : Mem}
    (h : Mid on masked sps tt l (fun _ => true) mem) : Laid on masked sps mem := by
  refine ⟨?_, h.active, h.inactive⟩
  constructor
  · intro k s hk i hi
    obtain ⟨sl, hsl, h1, h2⟩ := hc.slot k (Nat.zero_le _) s hk
    have hi' : i < sl.s.capacity.toNat := by rw [h2]; omega
    have hb := h.blocks sl hsl i hi'
    have hbd := hc.bound sl hsl
    refine ⟨sl.fm + i, ⟨by rw [h.nMol]; omega, by rw [hb.1, h1], hb.2⟩, ?_⟩
    rintro M ⟨hM, hM1, hM2⟩
    rw [h.nMol] at hM
    obtain ⟨sl', hsl', j, hj, rfl⟩ := hc.cover M (Nat.zero_le _) hM
    have hb' := h.blocks sl' hsl' j hj
    rw [hb'.1] at hM1
    rw [hb'.2] at hM2
    obtain rfl := hc.idx_inj sl' hsl' sl hsl (by rw [hM1, h1])
    rw [hM2]
  · intro M hM
    rw [h.nMol] at hM
    obtain ⟨sl, hsl, j, hj, rfl⟩ := hc.cover M (Nat.zero_le _) hM
    have hb := h.blocks sl hsl j hj
    refine ⟨sl.s, ?_, ?_⟩
    · rw [hb.1]; exact hc.get sl hsl
    · rw [hb.2]; omega
  · intro a ha
    rw [h.nAtom, h.atoms.total] at ha
    rw [h.nMol]
    obtain ⟨M, ⟨h1, h2, h3⟩, h4⟩ := prefix_unique _ _ _ ha
    refine ⟨M, ⟨h1, ?_, ?_⟩, ?_⟩
    · rw [h.atoms.first M h1]; exact h2
    · rw [h.atoms.first M h1]; exact h3
    · rintro M' ⟨g1, g2, g3⟩
      rw [h.atoms.first M' g1] at g2 g3
      exact h4 M' ⟨g1, g2, g3⟩
  · intro M hM s hs
    rw [h.nMol] at hM
    obtain ⟨s', e1, e2, e3⟩ := h.atoms.atoms M hM
    obtain rfl : s' = s := Option.some.inj (e1.symm.trans hs)
    have hpos := hv.nAtom s' (List.mem_of_getElem? e1)
    refine ⟨by omega, ?_, e3⟩
    rw [h.nAtom, h.atoms.total, h.atoms.first M hM]
    exact sum_le_sum_lt hM fun j => (mem.mol j).nAtom
  · intro k hk M hM s hs
    rw [h.nMol] at hM
    have hg := h.grps k rfl hk
    obtain ⟨s', e1, e2, e3⟩ := hg.grps M hM
    obtain rfl : s' = s := Option.some.inj (e1.symm.trans hs)
    refine ⟨_, hg.first M hM, ?_, ?_, e3⟩
    · rw [e2]; exact (hv.part s' (List.mem_of_getElem? e1) k).len
    · have h1 := sum_le_sum_lt hM fun j => (mem.mol j).num k
      rw [← hg.total] at h1
      exact h1.trans (h.nGrp k hk)
  · intro k hk M hM M' hM' hne f f' hf hf' p hp
    rw [h.nMol] at hM hM'
    have hg := h.grps k rfl hk
    rw [hg.first M hM] at hf
    rw [hg.first M' hM'] at hf'
    obtain rfl := Option.some.inj hf
    obtain rfl := Option.some.inj hf'
    rcases Nat.lt_or_gt_of_ne hne with hlt | hlt
    · have := sum_le_sum_lt hlt fun j => (mem.mol j).num k; omega
    · have := sum_le_sum_lt hlt fun j => (mem.mol j).num k; omega
  · exact fun k hk M => h.off k (Or.inr hk) M
  · intro M hM s hs i hi b
    rw [h.nMol] at hM
    rw [h.masks.1 M hM s hs i hi]
    have hmem := List.mem_of_getElem? hs
    have hp := hv.part s hmem .bond
    have hmp := mem_partners hp.size hp.distinct
    by_cases hon : masked = true ∧ on .bond = true
    · rw [hon.1, hon.2]
      simp only [Bool.and_self, if_true, List.mem_map]
      constructor
      · rintro ⟨x, hx, rfl⟩
        obtain ⟨h1, g, hg, h2, h3⟩ := (hmp i x).mp hx
        have hr := hp.range g hg x h3
        refine ⟨trivial, trivial, x.toNat, rfl, by omega, g, hg, h2, ?_⟩
        rwa [Int.toNat_of_nonneg hr.1]
      · rintro ⟨-, -, j, rfl, h1, g, hg, h2, h3⟩
        exact ⟨j, (hmp i j).mpr ⟨by omega, g, hg, h2, h3⟩, rfl⟩
    · have : (masked && on .bond && true) = false := by
        cases hm : masked <;> cases ho : on .bond <;> simp_all
      rw [this]
      simp only [Bool.false_eq_true, if_false, List.not_mem_nil, false_iff]
      rintro ⟨h1, h2, -⟩
      exact hon ⟨h1, h2⟩

/-- C35: for all valid species, initialization succeeds, never accesses an
array outside its bounds, and lays out the arrays as specified. -/
theorem C35_layout (on : Kind → Bool) (masked : Bool) (sps : List Spec) (hv : Valid sps)
    (hs : masked = true → on .bond = true → ∀ s ∈ sps, Simple s) :
    ∃ mem slots, initData on masked sps = ok (mem, slots) ∧ Laid on masked sps mem := by
  obtain ⟨mem, l, tt, e, hc, hm⟩ := initData_ok hv hs
  exact ⟨mem, l, e, hm.laid hv hc⟩

/-! ### Linear molecules, and examples -/

theorem partners_chain (n : ℕ) (t i : ℤ) :
    partners ((List.range n).map fun j : ℕ => (⟨[(j : ℤ), j + 1], t⟩ : Grp)) i =
      (if 0 < i ∧ i ≤ n then [i - 1] else []) ++ (if 0 ≤ i ∧ i < n then [i + 1] else []) := by
  induction n with
  | zero =>
    rw [if_neg (by push_cast; omega), if_neg (by push_cast; omega)]; rfl
  | succ n ih =>
    have : partners ((List.range (n + 1)).map fun j : ℕ => (⟨[(j : ℤ), j + 1], t⟩ : Grp)) i =
        partners ((List.range n).map fun j : ℕ => (⟨[(j : ℤ), j + 1], t⟩ : Grp)) i ++
          partners [(⟨[(n : ℤ), n + 1], t⟩ : Grp)] i := by
      rw [List.range_succ, List.map_append, partners, partners, partners, List.flatMap_append]
      rfl
    rw [this, ih, partners_single _ _ _ _ rfl]
    push_cast
    by_cases h1 : (n : ℤ) = i
    · subst h1
      rw [if_neg (by omega : ¬ (0 ≤ (n : ℤ) ∧ (n : ℤ) < n)), if_pos rfl,
        if_neg (by omega : ¬ (n : ℤ) + 1 = n),
        if_pos (by omega : 0 ≤ (n : ℤ) ∧ (n : ℤ) < n + 1)]
      by_cases h0 : 0 < (n : ℤ)
      · rw [if_pos (by omega), if_pos (by omega)]; simp
      · rw [if_neg (by omega), if_neg (by omega)]; simp
    · by_cases h2 : (n : ℤ) + 1 = i
      · subst h2
        rw [if_neg (by omega), if_neg (by omega), if_neg h1, if_pos rfl, if_pos (by omega),
          if_neg (by omega)]
        simp
      · have e1 : (0 < i ∧ i ≤ (n : ℤ) + 1) ↔ (0 < i ∧ i ≤ (n : ℤ)) := by omega
        have e2 : (0 ≤ i ∧ i < (n : ℤ) + 1) ↔ (0 ≤ i ∧ i < (n : ℤ)) := by omega
        simp only [if_neg h1, if_neg h2, e1, e2, List.append_nil]

open Verif.Species (LinearOK) in
/-- Linear molecules (homopolymers, diblocks and multiblocks, by the theorems
of C32) satisfy the requirements of `C35_layout`. -/
theorem C35_linear {m : ℕ} (hm : 0 < m) {ty : ℕ → ℤ} {tb ta td : ℤ} {hasA hasD : Prop} {s : Spec}
    (h : LinearOK m ty tb hasA ta hasD td s.sp) :
    0 < s.sp.nAtom ∧ (∀ k, PartOK k.size s.sp.nAtom (partOf s.sp k)) ∧ Simple s := by
  refine ⟨by rw [h.atoms]; omega, fun k => ?_, fun i => ?_⟩
  · rw [h.atoms]
    cases k with
    | bond => exact h.bonds.ok
    | angle =>
      by_cases hh : hasA
      · exact (h.angles hh).ok
      · exact (h.noAngles hh).2
    | dihedral =>
      by_cases hh : hasD
      · exact (h.dihedrals hh).ok
      · exact (h.noDihedrals hh).2
  · have hg : s.sp.bonds.grps = (List.range (m - 1)).map fun j : ℕ =>
        (⟨[(j : ℤ), j + 1], tb⟩ : Grp) := by
      have hlen := h.bonds.ok.len
      rw [h.bonds.count] at hlen
      apply List.ext_getElem?
      intro j
      by_cases hj : j < m - 1
      · rw [h.bonds.group j (by omega)]
        simp [hj]
      · rw [List.getElem?_eq_none (by omega), List.getElem?_eq_none (by simp; omega)]
    rw [hg, partners_chain]
    split <;> split <;> simp
    omega

/-- Dimers with capacity 3 followed by single atoms with capacity 2. -/
def exSps : List Spec :=
  [⟨0, 3, ⟨2, [5, 6], ⟨1, [⟨[0, 1], 7⟩], Species.regIds (fun _ => [0, 1]) 1⟩, .none, .none⟩⟩,
   ⟨1, 2, ⟨1, [8], .none, .none, .none⟩⟩]

theorem exSps_valid : Valid exSps := by
  have hz : ∀ N m : ℕ, PartOK N m Part.none := Species.partOK_zero
  refine ⟨by decide, ?_, by decide, by decide, ?_⟩
  · intro i s h
    match i, h with
    | 0, h => cases h; rfl
    | 1, h => cases h; rfl
    | i + 2, h => simp [exSps] at h
  · intro s hs k
    simp only [exSps, List.mem_cons, List.not_mem_nil, or_false] at hs
    rcases hs with rfl | rfl
    · cases k with
      | bond =>
        exact Species.partOK_reg 2 2 1 (fun _ => [0, 1]) (fun _ => 7) (by simp) (by simp) (by simp)
      | angle => exact hz 3 2
      | dihedral => exact hz 4 2
    · cases k <;> exact hz _ 1

theorem exSps_simple : ∀ s ∈ exSps, Simple s := by
  intro s hs i
  simp only [exSps, List.mem_cons, List.not_mem_nil, or_false] at hs
  rcases hs with rfl | rfl
  · rw [partners_single _ 0 1 i rfl]
    split <;> split <;> simp
  · simp [partners, Part.none]

example : ∃ mem slots, initData (fun k => k == .bond) true exSps = ok (mem, slots) ∧
    Laid (fun k => k == .bond) true exSps mem :=
  C35_layout _ _ _ exSps_valid fun _ _ => exSps_simple

/-- The third dimer occupies atoms 4 and 5 and bond 2; its atoms mask each
other; the atom after it is the first single atom. -/
example : ∃ mem slots, initData (fun k => k == .bond) true exSps = ok (mem, slots) ∧
    mem.nAtom = 8 ∧ (mem.mol 2).firstAtom = 4 ∧ (mem.mol 2).first .bond = some 2 ∧
    (mem.grp .bond 2).atoms = [4, 5] ∧ (mem.atom 4).mask = [5] ∧ (mem.atom 5).mask = [4] ∧
    (mem.atom 6).mol = some 3 ∧ (mem.mol 3).species = 1 ∧ (mem.mol 3).id = 0 ∧
    (mem.atom 6).typeId = 8 :=
  ⟨_, _, rfl, rfl, rfl, rfl, rfl, rfl, rfl, rfl, rfl, rfl, rfl⟩

/-- The hypothesis on bonds is needed: a molecule with two bonds between the
same atoms, which `Species::isValid` accepts, cannot be used if bonded pairs are
masked. -/
theorem C35_double_bond_throws :
    initData (fun _ => true) true [⟨0, 1, ⟨2, [0, 0], ⟨2, [⟨[0, 1], 0⟩, ⟨[0, 1], 1⟩],
      Species.regIds (fun _ => [0, 1]) 2⟩, .none, .none⟩⟩] = throw ∧
    Species.isValid false ⟨2, [0, 0], ⟨2, [⟨[0, 1], 0⟩, ⟨[0, 1], 1⟩],
      Species.regIds (fun _ => [0, 1]) 2⟩, .none, .none⟩ = ok () :=
  ⟨rfl, by rfl⟩

end Verif.McMem
