/-
DdMd configuration files of the postprocessor (C90).
-/
import Verif.PpConf.Model
import Mathlib.Tactic.Linarith

set_option autoImplicit false

namespace Verif.PpConf

open Verif.Cpp
open Verif.Cpp.Out

theorem getInts_eq (junk : ℤ) (l : List ℤ) (rest : List Tok) :
    getInts junk l.length (l.map Tok.int ++ rest) = ok (l, rest) := by
  induction l with
  | nil => rfl
  | cons a l ih => simp [getInts, getInt, ok_bind, ih]

theorem getInts_nil (junk : ℤ) (N : ℕ) : getInts junk N [] = ok (List.replicate N junk, []) := by
  induction N with
  | zero => rfl
  | succ N ih => simp [getInts, getInt, ok_bind, ih, List.replicate_succ]

theorem getGroup_eq (junk : ℤ) (N : ℕ) (g : Group) (hg : g.atomIds.length = N) (rest : List Tok) :
    getGroup junk N (putGroup g ++ rest) = ok (g, rest) := by
  subst hg
  simp [getGroup, putGroup, getInt, ok_bind, getInts_eq]

theorem getGroups_eq (junk : ℤ) (N : ℕ) (l : List Group) : ∀ (is : List ℕ) (acc : List Group) (rest : List Tok),
    is.length = l.length → (∀ g ∈ l, g.atomIds.length = N) →
    getGroups junk N is (acc, l.flatMap putGroup ++ rest) = ok (acc ++ l, rest) := by
  induction l with
  | nil =>
    intro is acc rest h _
    rw [List.length_nil, List.length_eq_zero_iff] at h
    subst h
    simp [getGroups]
  | cons g l ih =>
    intro is acc rest h h2
    obtain ⟨i, is, rfl⟩ : ∃ i is', is = i :: is' := by
      cases is with
      | nil => simp at h
      | cons i is => exact ⟨i, is, rfl⟩
    have := ih is (acc ++ [g]) rest (by simpa using h) (fun g hg => h2 g (List.mem_cons_of_mem _ hg))
    rw [getGroups] at this ⊢
    rw [loop_cons]
    simp only [List.flatMap_cons, List.append_assoc]
    rw [getGroup_eq junk N g (h2 g (by simp)), ok_bind, ok_bind, this]
    simp

theorem getGroups_nil (junk : ℤ) (N : ℕ) (is : List ℕ) : ∀ (acc : List Group),
    ∃ l, getGroups junk N is (acc, []) = ok (acc ++ l, []) ∧ l.length = is.length := by
  induction is with
  | nil => intro acc; exact ⟨[], by simp [getGroups], rfl⟩
  | cons i is ih =>
    intro acc
    obtain ⟨l, h1, h2⟩ := ih (acc ++ [⟨junk, junk, List.replicate N junk⟩])
    refine ⟨⟨junk, junk, List.replicate N junk⟩ :: l, ?_, by simp [h2]⟩
    rw [getGroups] at h1 ⊢
    rw [loop_cons]
    have e : getGroup junk N [] = ok (⟨junk, junk, List.replicate N junk⟩, []) := by
      simp only [getGroup, getInt, getInts_nil, ok_bind]
    simp only [e, ok_bind]
    rw [h1]
    simp

theorem getGroups_append (junk : ℤ) (N : ℕ) (is js : List ℕ) (x : List Group × List Tok) :
    getGroups junk N (is ++ js) x = (getGroups junk N is x >>= getGroups junk N js) := by
  simp only [getGroups]
  rw [loop_append]
  rfl

/-- A section of groups, read as it should be. -/
theorem section_eq (junk : ℤ) (N : ℕ) (c : Conf) (label nLabel : String) (g : Groups)
    (hN : ∀ x ∈ g.list, x.atomIds.length = N) (h0 : g.list ≠ []) (hc : g.list.length ≤ g.cap)
    (hn : g.list.length = c.bonds.list.length) (rest : List Tok) :
    readGroups junk N label nLabel g.cap (writeGroups c label nLabel g ++ rest) = ok (g, rest) := by
  have hp : 0 < g.list.length := List.length_pos_iff.2 h0
  have hcap : g.cap ≠ 0 := by omega
  have := getGroups_eq junk N g.list (List.range g.list.length) [] rest (by simp) hN
  rw [readGroups, writeGroups, ← hn]
  simp only [optional, List.cons_append, if_true, getLabel, check_true, ok_bind, getInt, hcap, if_false,
    Int.toNat_natCast]
  rw [check_true (by omega), ok_bind, check_true (by omega), ok_bind, this, ok_bind]
  simp

/-- A section of groups that is not there. -/
theorem section_none (junk : ℤ) (N : ℕ) (label nLabel : String) (cap : ℕ) (f : List Tok)
    (hf : (optional label f).1 = false) :
    readGroups junk N label nLabel cap f = ok (⟨cap, []⟩, f) := by
  simp [readGroups, hf]

/-! ### Atoms -/

/-- Atoms that the reader accepts. -/
def Valid (ctx : Bool) (cap : ℕ) (a : Atom) : Prop :=
  0 ≤ a.id ∧ a.id < cap ∧
    (ctx = true → 0 ≤ a.speciesId ∧ 0 ≤ a.moleculeId ∧ 0 ≤ a.atomId)

/-- An atom as it is read: without contexts, the place in the molecule is what was in memory. -/
def seen (junk : ℤ) (ctx : Bool) (a : Atom) : Atom :=
  if ctx then a else { a with speciesId := junk, moleculeId := junk, atomId := junk }

theorem getAtom_eq (junk : ℤ) (ctx : Bool) (cap : ℕ) (a : Atom) (ha : Valid ctx cap a) (rest : List Tok) :
    getAtom junk ctx cap (putAtom ctx a ++ rest) = ok (seen junk ctx a, rest) := by
  obtain ⟨h1, h2, h3⟩ := ha
  cases ctx with
  | true =>
    have h3 := h3 rfl
    simp [getAtom, putAtom, getInt, getVec, ok_bind, check_true, h1, h2, h3, seen]
  | false =>
    simp [getAtom, putAtom, getInt, getVec, ok_bind, check_true, h1, h2, seen]

theorem getAtoms_eq (junk : ℤ) (ctx : Bool) (cap : ℕ) (l : List Atom) :
    ∀ (is : List ℕ) (acc : List Atom) (rest : List Tok), is.length = l.length → (∀ a ∈ l, Valid ctx cap a) →
    loop (fun (x : List Atom × List Tok) (_ : ℕ) => do
      let a ← getAtom junk ctx cap x.2
      ok (x.1 ++ [a.1], a.2)) is (acc, l.flatMap (putAtom ctx) ++ rest) = ok (acc ++ l.map (seen junk ctx), rest) := by
  induction l with
  | nil =>
    intro is acc rest h _
    rw [List.length_nil, List.length_eq_zero_iff] at h
    subst h
    simp
  | cons a l ih =>
    intro is acc rest h h2
    obtain ⟨i, is, rfl⟩ : ∃ i is', is = i :: is' := by
      cases is with
      | nil => simp at h
      | cons i is => exact ⟨i, is, rfl⟩
    rw [loop_cons]
    simp only [List.flatMap_cons, List.append_assoc]
    rw [getAtom_eq junk ctx cap a (h2 a (by simp)), ok_bind, ok_bind,
      ih is (acc ++ [seen junk ctx a]) rest (by simpa using h) (fun g hg => h2 g (List.mem_cons_of_mem _ hg))]
    simp

/-- The head of a file and the atoms are read as they were written. -/
theorem head_eq (junk : ℤ) (ctx : Bool) (c : Conf) (hctx : (c.hasContexts && ctx) = ctx)
    (h0 : c.atoms ≠ []) (hc : c.atoms.length ≤ c.cap) (ha : ∀ a ∈ c.atoms, Valid ctx c.cap a) (b1 b2 b3 : ℕ) :
    readConfig junk ctx c.cap b1 b2 b3 (writeConfig ctx c) = (do
      let bonds ← readGroups junk 2 "BONDS" "nBond" b1
        ((if c.bonds.cap ≠ 0 then writeGroups c "BONDS" "nBond" c.bonds else []) ++
        ((if c.angles.cap ≠ 0 then writeGroups c "ANGLES" "nAngle" c.angles else []) ++
        (if c.dihedrals.cap ≠ 0 then writeGroups c "DIHEDRALS" "nDihedral" c.dihedrals else [])))
      let angles ← readGroups junk 3 "ANGLES" "nAngle" b2 bonds.2
      let dihedrals ← readGroups junk 4 "DIHEDRALS" "nDihedral" b3 angles.2
      ok ⟨c.boundary, ctx, c.cap, c.atoms.map (seen junk ctx), bonds.1, angles.1, dihedrals.1⟩) := by
  have hp : 0 < c.atoms.length := List.length_pos_iff.2 h0
  have hcap : c.cap ≠ 0 := by omega
  have h1 := getAtoms_eq junk ctx c.cap c.atoms (List.range c.atoms.length) []
    ((if c.bonds.cap ≠ 0 then writeGroups c "BONDS" "nBond" c.bonds else []) ++
        ((if c.angles.cap ≠ 0 then writeGroups c "ANGLES" "nAngle" c.angles else []) ++
        (if c.dihedrals.cap ≠ 0 then writeGroups c "DIHEDRALS" "nDihedral" c.dihedrals else [])))
    (by simp) ha
  rw [readConfig, writeConfig, hctx]
  simp only [List.cons_append, List.nil_append, getLabel, check_true, ok_bind, getVec, getInt,
    Int.toNat_natCast, hcap, if_false]
  rw [check_true (by omega), ok_bind, check_true (by omega), ok_bind, h1, ok_bind]
  rfl

/-! ### The properties -/

/-- A storage whose section is read as it was written: unallocated, or with as many groups as there are
bonds, and at least one. -/
def Good (N : ℕ) (c : Conf) (g : Groups) : Prop :=
  (g.cap = 0 ∧ g.list = []) ∨
  (g.cap ≠ 0 ∧ g.list ≠ [] ∧ g.list.length ≤ g.cap ∧ g.list.length = c.bonds.list.length ∧
    ∀ x ∈ g.list, x.atomIds.length = N)

theorem good_read (junk : ℤ) (N : ℕ) (c : Conf) (label nLabel : String) (g : Groups) (hg : Good N c g)
    (rest : List Tok) (hr : (optional label rest).1 = false) :
    readGroups junk N label nLabel g.cap ((if g.cap ≠ 0 then writeGroups c label nLabel g else []) ++ rest)
      = ok (g, rest) := by
  rcases hg with ⟨h1, h2⟩ | ⟨h1, h2, h3, h4, h5⟩
  · obtain ⟨cap, l⟩ := g
    simp only at h1 h2
    subst h1 h2
    simp only [ne_eq, not_true_eq_false, if_false, List.nil_append]
    exact section_none junk N label nLabel 0 rest hr
  · rw [if_pos h1]
    exact section_eq junk N c label nLabel g h5 h2 h3 h4 rest

/-- **C90**, a configuration whose allocated storages of groups all have as many groups as there are bonds is
read as it was written, with the places of atoms in molecules if they are asked for. -/
theorem C90_roundtrip (junk : ℤ) (ctx : Bool) (c : Conf) (hctx : ctx = true → c.hasContexts = true)
    (h0 : c.atoms ≠ []) (hc : c.atoms.length ≤ c.cap) (ha : ∀ a ∈ c.atoms, Valid ctx c.cap a)
    (hb : Good 2 c c.bonds) (hg : Good 3 c c.angles) (hd : Good 4 c c.dihedrals) :
    readConfig junk ctx c.cap c.bonds.cap c.angles.cap c.dihedrals.cap (writeConfig ctx c)
      = ok { c with hasContexts := ctx, atoms := c.atoms.map (seen junk ctx) } := by
  rw [head_eq junk ctx c (by cases ctx <;> simp_all) h0 hc ha]
  rw [good_read junk 2 c "BONDS" "nBond" c.bonds hb _ (by
    by_cases h1 : c.angles.cap = 0 <;> by_cases h2 : c.dihedrals.cap = 0 <;> simp [h1, h2, writeGroups, optional]),
    ok_bind]
  rw [good_read junk 3 c "ANGLES" "nAngle" c.angles hg _ (by
    by_cases h2 : c.dihedrals.cap = 0 <;> simp [h2, writeGroups, optional]), ok_bind]
  have := good_read junk 4 c "DIHEDRALS" "nDihedral" c.dihedrals hd [] (by simp [optional])
  rw [List.append_nil] at this
  rw [this, ok_bind]

/-- **C90**, a configuration with bonds only is read as it was written. -/
theorem C90_bonds (junk : ℤ) (ctx : Bool) (c : Conf) (hctx : ctx = true → c.hasContexts = true)
    (h0 : c.atoms ≠ []) (hc : c.atoms.length ≤ c.cap) (ha : ∀ a ∈ c.atoms, Valid ctx c.cap a)
    (hb : c.bonds.list ≠ []) (hb2 : c.bonds.list.length ≤ c.bonds.cap)
    (hb3 : ∀ x ∈ c.bonds.list, x.atomIds.length = 2) (hg : c.angles = ⟨0, []⟩) (hd : c.dihedrals = ⟨0, []⟩) :
    readConfig junk ctx c.cap c.bonds.cap c.angles.cap c.dihedrals.cap (writeConfig ctx c)
      = ok { c with hasContexts := ctx, atoms := c.atoms.map (seen junk ctx) } := by
  have hp : 0 < c.bonds.list.length := List.length_pos_iff.2 hb
  exact C90_roundtrip junk ctx c hctx h0 hc ha (Or.inr ⟨by omega, hb, hb2, rfl, hb3⟩)
    (Or.inl (by simp [hg])) (Or.inl (by simp [hd]))

/-- **C90**, with the places of atoms in molecules, what is read is the configuration itself. -/
theorem C90_same (junk : ℤ) (c : Conf) (hctx : c.hasContexts = true)
    (h0 : c.atoms ≠ []) (hc : c.atoms.length ≤ c.cap) (ha : ∀ a ∈ c.atoms, Valid true c.cap a)
    (hb : Good 2 c c.bonds) (hg : Good 3 c c.angles) (hd : Good 4 c c.dihedrals) :
    readConfig junk true c.cap c.bonds.cap c.angles.cap c.dihedrals.cap (writeConfig true c) = ok c := by
  rw [C90_roundtrip junk true c (fun _ => hctx) h0 hc ha hb hg hd]
  obtain ⟨b, hasC, cap, atoms, x, y, z⟩ := c
  simp only at hctx
  subst hctx
  have : seen junk true = id := by funext a; simp [seen]
  simp [this]

/-- The hypotheses of the disagreements: atoms and bonds that are read as they were, and an allocated storage
of angles, without dihedrals. -/
structure Angled (ctx : Bool) (c : Conf) : Prop where
  same : c.hasContexts = ctx
  atoms : c.atoms ≠ []
  cap : c.atoms.length ≤ c.cap
  valid : ∀ a ∈ c.atoms, Valid ctx c.cap a
  bonds : Good 2 c c.bonds
  alloc : c.angles.cap ≠ 0
  three : ∀ x ∈ c.angles.list, x.atomIds.length = 3
  dihedrals : c.dihedrals = ⟨0, []⟩

theorem angled_eq (junk : ℤ) (ctx : Bool) (c : Conf) (h : Angled ctx c) :
    readConfig junk ctx c.cap c.bonds.cap c.angles.cap c.dihedrals.cap (writeConfig ctx c) = (do
      let angles ← readGroups junk 3 "ANGLES" "nAngle" c.angles.cap
        (writeGroups c "ANGLES" "nAngle" c.angles)
      let dihedrals ← readGroups junk 4 "DIHEDRALS" "nDihedral" 0 angles.2
      ok ⟨c.boundary, ctx, c.cap, c.atoms.map (seen junk ctx), c.bonds, angles.1, dihedrals.1⟩) := by
  have e := head_eq junk ctx c (by simp [h.same]) h.atoms h.cap h.valid c.bonds.cap c.angles.cap c.dihedrals.cap
  rw [e]
  have hd : (if c.dihedrals.cap ≠ 0 then writeGroups c "DIHEDRALS" "nDihedral" c.dihedrals else []) = [] := by
    simp [h.dihedrals]
  rw [hd, if_pos h.alloc, List.append_nil,
    good_read junk 2 c "BONDS" "nBond" c.bonds h.bonds _ (by simp [writeGroups, optional]), ok_bind]
  simp [h.dihedrals]

/-- **C90**, disagreement: with fewer angles than bonds, as in linear chains, the number written is that of
bonds, and the reader makes up the angles that are missing from what is in memory. -/
theorem C90_invented_violated (junk : ℤ) (ctx : Bool) (c : Conf) (h : Angled ctx c)
    (hl : c.angles.list.length < c.bonds.list.length) (hc : c.bonds.list.length ≤ c.angles.cap) :
    ∃ c', readConfig junk ctx c.cap c.bonds.cap c.angles.cap c.dihedrals.cap (writeConfig ctx c) = ok c' ∧
      c'.angles.list.length = c.bonds.list.length ∧
      ∃ l, l ≠ [] ∧ c'.angles.list = c.angles.list ++ l := by
  rw [angled_eq junk ctx c h]
  obtain ⟨k, hk⟩ : ∃ k, c.bonds.list.length = c.angles.list.length + (k + 1) :=
    ⟨c.bonds.list.length - c.angles.list.length - 1, by omega⟩
  have h1 := getGroups_eq junk 3 c.angles.list (List.range c.angles.list.length) [] [] (by simp) h.three
  obtain ⟨l, h2, h3⟩ := getGroups_nil junk 3 (List.range' c.angles.list.length (k + 1)) c.angles.list
  have h4 : readGroups junk 3 "ANGLES" "nAngle" c.angles.cap (writeGroups c "ANGLES" "nAngle" c.angles)
      = ok (⟨c.angles.cap, c.angles.list ++ l⟩, []) := by
    rw [readGroups, writeGroups]
    simp only [optional, if_true, getLabel, check_true, ok_bind, getInt, h.alloc, if_false, Int.toNat_natCast]
    rw [check_true (by omega), ok_bind, check_true (by omega), ok_bind, hk, List.range_eq_range',
      ← List.range'_append_1, Nat.zero_add, getGroups_append]
    rw [List.append_nil, List.nil_append, List.range_eq_range'] at h1
    rw [h1, ok_bind, h2, ok_bind]
  rw [h4, ok_bind, section_none junk 4 "DIHEDRALS" "nDihedral" 0 [] (by simp [optional]), ok_bind]
  simp only [List.length_range'] at h3
  refine ⟨_, rfl, by simp [h3, hk], l, ?_, rfl⟩
  intro h5
  rw [h5] at h3
  simp at h3

/-- **C90**, disagreement: with fewer bonds than angles the last angles are lost without an error. -/
theorem C90_lost_violated (junk : ℤ) (ctx : Bool) (c : Conf) (h : Angled ctx c)
    (h0 : c.bonds.list ≠ []) (hl : c.bonds.list.length < c.angles.list.length)
    (hc : c.angles.list.length ≤ c.angles.cap) :
    ∃ c', readConfig junk ctx c.cap c.bonds.cap c.angles.cap c.dihedrals.cap (writeConfig ctx c) = ok c' ∧
      c'.angles.list = c.angles.list.take c.bonds.list.length := by
  rw [angled_eq junk ctx c h]
  have hp : 0 < c.bonds.list.length := List.length_pos_iff.2 h0
  have hlen : (c.angles.list.take c.bonds.list.length).length = c.bonds.list.length := by
    rw [List.length_take]; omega
  have h1 := getGroups_eq junk 3 (c.angles.list.take c.bonds.list.length) (List.range c.bonds.list.length) []
    ((c.angles.list.drop c.bonds.list.length).flatMap putGroup) (by simp; omega)
    (fun g hg => h.three g (List.mem_of_mem_take hg))
  rw [← List.flatMap_append, List.take_append_drop] at h1
  have h4 : readGroups junk 3 "ANGLES" "nAngle" c.angles.cap (writeGroups c "ANGLES" "nAngle" c.angles)
      = ok (⟨c.angles.cap, c.angles.list.take c.bonds.list.length⟩,
          (c.angles.list.drop c.bonds.list.length).flatMap putGroup) := by
    rw [readGroups, writeGroups]
    simp only [optional, if_true, getLabel, check_true, ok_bind, getInt, h.alloc, if_false, Int.toNat_natCast]
    rw [check_true (by omega), ok_bind, check_true (by omega), ok_bind, h1, ok_bind]
    simp
  rw [h4, ok_bind, section_none junk 4 "DIHEDRALS" "nDihedral" 0 _ (by
    cases c.angles.list.drop c.bonds.list.length <;> simp [optional, putGroup]), ok_bind]
  exact ⟨_, rfl, rfl⟩

/-- **C90**, disagreement: angles without bonds are written with the number zero, which the reader refuses. -/
theorem C90_nobonds_violated (junk : ℤ) (ctx : Bool) (c : Conf) (h : Angled ctx c) (h0 : c.bonds.list = []) :
    readConfig junk ctx c.cap c.bonds.cap c.angles.cap c.dihedrals.cap (writeConfig ctx c) = Out.throw := by
  rw [angled_eq junk ctx c h, readGroups, writeGroups, h0]
  simp [optional, getLabel, getInt, ok_bind, check_true, check_false, throw_bind]

end Verif.PpConf
