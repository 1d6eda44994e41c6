/-
C55: molecular structures in the text of topology files.  Model and theorems.
-/
import Verif.Species.Archive

set_option autoImplicit false

namespace Verif.Species

open Verif.Cpp
open Verif.Cpp.Out

/-! ### Model -/

/-- Whitespace separated words of a file. -/
inductive Word where
  | lab (s : String)
  | num (z : ℤ)
  deriving DecidableEq

/-- Formatted extraction of an integer.  Simplification: a failed extraction
sets the fail bit of the stream and later extractions do nothing; here it ends
the operation. -/
def rdNum : List Word → Out (ℤ × List Word)
  | .num z :: ws => ok (z, ws)
  | _ => throw

def rdNums : ℕ → List Word → Out (List ℤ × List Word)
  | 0, ws => ok ([], ws)
  | n + 1, ws => do
    let (z, ws) ← rdNum ws
    let (zs, ws) ← rdNums n ws
    ok (z :: zs, ws)

/-- `in >> Label(s)`: a required label. -/
def rdLabel (s : String) : List Word → Out (List Word)
  | .lab t :: ws => if t = s then ok ws else throw
  | _ => throw

/-- `Label(s, false).match(in)`: an optional label; a word that does not match
stays in the buffer of `Label` for the next one. -/
def optLabel (s : String) : List Word → Bool × List Word
  | .lab t :: ws => if t = s then (true, ws) else (false, .lab t :: ws)
  | ws => (false, ws)

/-- Text of a group: atom ids, then the type id. -/
def wrGrp (i : ℕ) (g : Grp) : List Word :=
  .num i :: (g.atoms.map Word.num ++ [.num g.typeId])

def wrGrps : ℕ → List Grp → List Word
  | _, [] => []
  | i, g :: gs => wrGrp i g ++ wrGrps (i + 1) gs

/-- One group section of `Species::writeStructure`, Species.cpp:352-380. -/
def wrPart (label : String) (p : Part) : List Word :=
  if 0 < p.n then .lab label :: .num p.n :: wrGrps 0 p.grps else []

def wrTypes : ℕ → List ℤ → List Word
  | _, [] => []
  | i, t :: ts => .num i :: .num t :: wrTypes (i + 1) ts

/-- `Species::writeStructure`, Species.cpp:338-380, for code compiled with
bonds. -/
def writeStructure (cfg : Cfg) (s : Sp) : List Word :=
  .lab "nAtom" :: .num s.nAtom :: (wrTypes 0 s.types ++ wrPart "nBond" s.bonds
    ++ (if cfg.angle then wrPart "nAngle" s.angles else [])
    ++ (if cfg.dihedral then wrPart "nDihedral" s.dihedrals else []))

/-- Atom types in `readStructure`, Species.cpp:168-171: the index is read but
not used. -/
def rdTypes : ℕ → List Word → Out (List ℤ × List Word)
  | 0, ws => ok ([], ws)
  | n + 1, ws => do
    let (_, ws) ← rdNum ws
    let (t, ws) ← rdNum ws
    let (ts, ws) ← rdTypes n ws
    ok (t :: ts, ws)

/-- Groups in `readStructure`, Species.cpp:180-184: the index is checked. -/
def rdGrps (N : ℕ) : ℕ → ℕ → List Word → Out (List Grp × List Word)
  | _, 0, ws => ok ([], ws)
  | j, n + 1, ws => do
    let (k, ws) ← rdNum ws
    check (k = (j : ℤ))
    let (as, ws) ← rdNums N ws
    let (t, ws) ← rdNum ws
    let (gs, ws) ← rdGrps N (j + 1) n ws
    ok (⟨as, t⟩ :: gs, ws)

/-- The count of an optional section. -/
def rdCount (label : String) (ws : List Word) : Out (ℤ × List Word) :=
  match optLabel label ws with
  | (true, ws) => rdNum ws
  | (false, ws) => ok (0, ws)

/-- One group section of `readStructure`, Species.cpp:174-186, 188-200, 202-214. -/
def rdPart (N : ℕ) (label : String) (nAtom : ℤ) (ws : List Word) : Out (Part × List Word) := do
  let (n, ws) ← rdCount label ws
  let p ← allocPart N nAtom n
  if 0 < n then do
    let (gs, ws) ← rdGrps N 0 n.toNat ws
    ok ({ p with grps := gs }, ws)
  else ok (p, ws)

def rdPartIf (c : Bool) (N : ℕ) (label : String) (nAtom : ℤ) (ws : List Word) :
    Out (Part × List Word) :=
  if c then rdPart N label nAtom ws else ok (Part.none, ws)

/-- `Species::readStructure`, Species.cpp:160-222. -/
def readStructure (cfg : Cfg) (ws : List Word) : Out (Sp × List Word) := do
  let ws ← rdLabel "nAtom" ws
  let (n, ws) ← rdNum ws
  let _ ← allocAtoms n
  let (ts, ws) ← rdTypes n.toNat ws
  let (pb, ws) ← rdPart 2 "nBond" n ws
  let (pa, ws) ← rdPartIf cfg.angle 3 "nAngle" n ws
  let (pd, ws) ← rdPartIf cfg.dihedral 4 "nDihedral" n ws
  check (0 < n)
  let pb ← initIds maxBond n pb
  let pa ← initIds maxAngle n pa
  let pd ← initIds maxDihedral n pd
  let s : Sp := ⟨n, ts, pb, pa, pd⟩
  isValid false s
  ok (s, ws)

/-- Atom section of `matchStructure`, Species.cpp:394-398. -/
def matchTypes : ℕ → List ℤ → Bool → List Word → Out (Bool × List Word)
  | _, [], m, ws => ok (m, ws)
  | i, t :: ts, m, ws => do
    let (k, ws) ← rdNum ws
    let (u, ws) ← rdNum ws
    matchTypes (i + 1) ts (m && decide (k = (i : ℤ)) && decide (u = t)) ws

/-- Group loop of `matchStructure`: index and type are read and ignored; the
atom ids are compared with those expected. -/
def matchGrps (N : ℕ) : List (Out (List ℤ)) → Bool → List Word → Out (Bool × List Word)
  | [], m, ws => ok (m, ws)
  | e :: es, m, ws => do
    let (_, ws) ← rdNum ws
    let (as, ws) ← rdNums N ws
    let (_, ws) ← rdNum ws
    let x ← e
    matchGrps N es (m && decide (as = x)) ws

/-- One group section of `matchStructure`. -/
def matchPart (N : ℕ) (label : String) (n : ℤ) (es : List (Out (List ℤ))) (m : Bool)
    (ws : List Word) : Out (Bool × List Word) :=
  match optLabel label ws with
  | (true, ws) => do
    let (c, ws) ← rdNum ws
    matchGrps N es (m && decide (c = n)) ws
  | (false, ws) => ok (m, ws)

/-- Expected atoms of bonds and dihedrals, Species.cpp:408-409, 434-437. -/
def expect (gs : List Grp) : List (Out (List ℤ)) := gs.map fun g => ok g.atoms

/-- Expected atoms of angles, Species.cpp:421-423: the third is taken from the
*dihedral* with the same index; without one, the access is out of bounds. -/
def expectAngles : List Grp → List Grp → List (Out (List ℤ))
  | [], _ => []
  | _ :: gs, [] => ub :: expectAngles gs []
  | g :: gs, d :: ds => ok [g.atoms.getD 0 0, g.atoms.getD 1 0, d.atoms.getD 2 0]
      :: expectAngles gs ds

def matchPartIf (c : Bool) (N : ℕ) (label : String) (n : ℤ) (es : List (Out (List ℤ))) (m : Bool)
    (ws : List Word) : Out (Bool × List Word) :=
  if c then matchPart N label n es m ws else ok (m, ws)

/-- `Species::matchStructure`, Species.cpp:385-445.  (Compiling with angles but
without dihedrals is impossible because of Species.cpp:423.) -/
def matchStructure (cfg : Cfg) (s : Sp) (ws : List Word) : Out (Bool × List Word) := do
  let ws ← rdLabel "nAtom" ws
  let (c, ws) ← rdNum ws
  let (m, ws) ← matchTypes 0 s.types (decide (c = s.nAtom)) ws
  let (m, ws) ← matchPart 2 "nBond" s.bonds.n (expect s.bonds.grps) m ws
  let (m, ws) ← matchPartIf cfg.angle 3 "nAngle" s.angles.n
    (expectAngles s.angles.grps s.dihedrals.grps) m ws
  matchPartIf cfg.dihedral 4 "nDihedral" s.dihedrals.n (expect s.dihedrals.grps) m ws

/-! ### Reading what was written -/

/-- What follows a structure in a file does not look like a further section. -/
def Follows (ws : List Word) : Prop :=
  ∀ s rest, ws = .lab s :: rest → s ≠ "nBond" ∧ s ≠ "nAngle" ∧ s ≠ "nDihedral"

theorem rdNums_wr (zs : List ℤ) (ws : List Word) :
    rdNums zs.length (zs.map Word.num ++ ws) = ok (zs, ws) := by
  induction zs with
  | nil => rfl
  | cons z zs ih =>
    simp only [List.length_cons, List.map_cons, List.cons_append, rdNums, rdNum, ok_bind, ih]

theorem rdTypes_wr (i : ℕ) (ts : List ℤ) (ws : List Word) :
    rdTypes ts.length (wrTypes i ts ++ ws) = ok (ts, ws) := by
  induction ts generalizing i with
  | nil => rfl
  | cons t ts ih =>
    simp only [List.length_cons, wrTypes, List.cons_append, rdTypes, rdNum, ok_bind, ih]

theorem rdGrps_wr (N i : ℕ) (gs : List Grp) (h : ∀ g ∈ gs, g.atoms.length = N) (ws : List Word) :
    rdGrps N i gs.length (wrGrps i gs ++ ws) = ok (gs, ws) := by
  induction gs generalizing i with
  | nil => rfl
  | cons g gs ih =>
    simp only [List.length_cons, wrGrps, wrGrp, List.cons_append, List.append_assoc, rdGrps, rdNum,
      ok_bind, List.nil_append]
    rw [check_true trivial, ok_bind, ← h g (by simp), rdNums_wr, ok_bind]
    simp only [rdNum, ok_bind]
    rw [h g (by simp), ih (i + 1) fun x hx => h x (by simp [hx]), ok_bind]

/-- Text that does not start with the given label. -/
def NotLab (s : String) (ws : List Word) : Prop := ∀ rest, ws ≠ .lab s :: rest

theorem optLabel_notLab {s : String} {ws : List Word} (h : NotLab s ws) :
    optLabel s ws = (false, ws) := by
  cases ws with
  | nil => rfl
  | cons w ws =>
    cases w with
    | num z => rfl
    | lab t =>
      have : t ≠ s := by
        rintro rfl
        exact h ws rfl
      simp [optLabel, this]

theorem notLab_wrPart {s l : String} (p : Part) {ws : List Word} (hl : l ≠ s) (h : NotLab s ws) :
    NotLab s (wrPart l p ++ ws) := by
  unfold wrPart
  by_cases hp : 0 < p.n
  · rw [if_pos hp]
    intro rest he
    simp only [List.cons_append, List.cons.injEq, Word.lab.injEq] at he
    exact hl he.1
  · rw [if_neg hp]; simpa using h

theorem notLab_if {s l : String} (c : Bool) (p : Part) {ws : List Word} (hl : l ≠ s)
    (h : NotLab s ws) : NotLab s ((if c then wrPart l p else []) ++ ws) := by
  cases c
  · simpa using h
  · simpa using notLab_wrPart p hl h

theorem rdPart_wr (N : ℕ) (label : String) (nAtom : ℤ) (hn : 0 < nAtom) (gs : List Grp)
    (h : ∀ g ∈ gs, g.atoms.length = N) (ids : ℕ → List ℤ) (ws : List Word)
    (hw : NotLab label ws) :
    rdPart N label nAtom (wrPart label ⟨gs.length, gs, ids⟩ ++ ws) =
      ok (⟨gs.length, gs, fun _ => []⟩, ws) := by
  unfold wrPart rdPart
  simp only []
  by_cases hp : 0 < (gs.length : ℤ)
  · rw [if_pos hp]
    simp only [rdCount, optLabel, List.cons_append, if_true, rdNum, ok_bind, allocPart]
    rw [check_true hn, ok_bind, check_true (by omega), ok_bind, ok_bind, if_pos hp, Int.toNat_natCast,
      rdGrps_wr N 0 gs h, ok_bind]
  · have : gs = [] := List.length_eq_zero_iff.mp (by omega)
    subst this
    simp only [rdCount, List.length_nil, Nat.cast_zero, lt_irrefl, if_false, List.nil_append,
      optLabel_notLab hw, ok_bind, allocPart]
    rw [check_true hn, ok_bind, check_true le_rfl, ok_bind]
    rfl

theorem rdPartIf_wr (c : Bool) (N : ℕ) (label : String) (nAtom : ℤ) (hn : 0 < nAtom)
    (gs : List Grp) (h : ∀ g ∈ gs, g.atoms.length = N) (hc : c = false → gs = [])
    (ids : ℕ → List ℤ) (ws : List Word) (hw : NotLab label ws) :
    rdPartIf c N label nAtom ((if c then wrPart label ⟨gs.length, gs, ids⟩ else []) ++ ws) =
      ok (⟨gs.length, gs, fun _ => []⟩, ws) := by
  cases c
  · have := hc rfl
    subst this
    simp [rdPartIf, Part.none]
  · simp only [rdPartIf, if_true]
    exact rdPart_wr N label nAtom hn gs h ids ws hw

/-- **The text of a structure determines it**: reading what was written for a
species gives the same species and leaves what follows. -/
theorem C55_roundtrip {cfg : Cfg} {f g : PFile} {b : Base} (hr : readBase cfg f = ok (b, g))
    (ws : List Word) (hw : Follows ws) :
    readStructure cfg (writeStructure cfg b.sp ++ ws) = ok (b.sp, ws) := by
  obtain ⟨m, ts, gb, ga, gd, pb, pa, pd, hm, hts, hgb, hga, hgd, hca, hcd, hpb, hpa, hpd, hsp, hv⟩
    := readBase_spec hr
  rw [hsp] at hv ⊢
  obtain ⟨ib, rfl⟩ := initIds_part hpb
  obtain ⟨ia, rfl⟩ := initIds_part hpa
  obtain ⟨id, rfl⟩ := initIds_part hpd
  have hm' : (0 : ℤ) < m := by omega
  have n3 : NotLab "nDihedral" ws := fun r e => (hw _ _ e).2.2 rfl
  have n2 : NotLab "nAngle" ws := fun r e => (hw _ _ e).2.1 rfl
  have n1 : NotLab "nBond" ws := fun r e => (hw _ _ e).1 rfl
  simp only [readStructure, writeStructure, List.cons_append, List.append_assoc, rdLabel, if_true,
    ok_bind, rdNum]
  have hat : allocAtoms m = ok (List.replicate m (-1)) := by
    unfold allocAtoms; rw [check_true hm', ok_bind, Int.toNat_natCast]
  rw [hat, ok_bind, Int.toNat_natCast, ← hts, rdTypes_wr, ok_bind, hts]
  simp only []
  rw [rdPart_wr 2 "nBond" m hm' gb hgb _ _
    (notLab_if _ _ (by decide) (notLab_if _ _ (by decide) n1)), ok_bind]
  simp only []
  rw [rdPartIf_wr cfg.angle 3 "nAngle" m hm' ga hga hca _ _ (notLab_if _ _ (by decide) n2),
    ok_bind]
  simp only []
  rw [rdPartIf_wr cfg.dihedral 4 "nDihedral" m hm' gd hgd hcd _ _ n3, ok_bind]
  simp only []
  rw [check_true hm', ok_bind, hpb, ok_bind, hpa, ok_bind, hpd, ok_bind, hv, ok_bind]

/-- A species with bonds and an angle, followed by the number of molecules. -/
example : ∃ b g, readBase ⟨true, true⟩ [("moleculeCapacity", [3]), ("nAtom", [3]),
    ("atomTypeIds", [0, 1, 0]), ("nBond", [2]), ("speciesBonds", [0, 1, 0, 1, 2, 0]),
    ("nAngle", [1]), ("speciesAngles", [0, 1, 2, 5]), ("nDihedral", [0])] = ok (b, g) ∧
    writeStructure ⟨true, true⟩ b.sp =
      [.lab "nAtom", .num 3, .num 0, .num 0, .num 1, .num 1, .num 2, .num 0,
       .lab "nBond", .num 2, .num 0, .num 0, .num 1, .num 0, .num 1, .num 1, .num 2, .num 0,
       .lab "nAngle", .num 1, .num 0, .num 0, .num 1, .num 2, .num 5] ∧
    Follows [.lab "nMolecule", .num 3] := by
  refine ⟨_, _, rfl, rfl, fun s rest h => ?_⟩
  simp only [List.cons.injEq, Word.lab.injEq] at h
  rw [← h.1]
  decide

/-! ### Comparing a species with a file -/

theorem matchTypes_wr (i : ℕ) (ts us : List ℤ) (hl : ts.length = us.length) (m : Bool)
    (ws : List Word) :
    matchTypes i ts m (wrTypes i us ++ ws) = ok (m && decide (us = ts), ws) := by
  induction ts generalizing i us m with
  | nil =>
    have : us = [] := List.length_eq_zero_iff.mp hl.symm
    subst this
    simp [matchTypes, wrTypes]
  | cons t ts ih =>
    cases us with
    | nil => cases hl
    | cons u us =>
      simp only [List.length_cons, Nat.add_right_cancel_iff] at hl
      simp only [matchTypes, wrTypes, List.cons_append, rdNum, ok_bind]
      rw [ih (i + 1) us hl]
      simp [Bool.and_assoc, Bool.decide_and]

/-- Comparison of a section with a list of the same number of groups. -/
theorem matchGrps_wr (N i : ℕ) (es : List (List ℤ)) (gs : List Grp)
    (h : ∀ g ∈ gs, g.atoms.length = N) (hl : es.length = gs.length) (m : Bool) (ws : List Word) :
    matchGrps N (es.map Out.ok) m (wrGrps i gs ++ ws) =
      ok (m && decide (gs.map Grp.atoms = es), ws) := by
  induction es generalizing i gs m with
  | nil =>
    have : gs = [] := List.length_eq_zero_iff.mp hl.symm
    subst this
    simp [matchGrps, wrGrps]
  | cons e es ih =>
    cases gs with
    | nil => cases hl
    | cons g gs =>
      simp only [List.length_cons, Nat.add_right_cancel_iff] at hl
      simp only [List.map_cons, matchGrps, wrGrps, wrGrp, List.cons_append, List.append_assoc,
        List.nil_append, rdNum, ok_bind]
      rw [← h g (by simp), rdNums_wr, ok_bind]
      simp only [rdNum, ok_bind]
      rw [h g (by simp), ih (i + 1) gs (fun x hx => h x (by simp [hx])) hl]
      simp [Bool.and_assoc, Bool.decide_and]

/-- A section of the file compared with the groups of a species with as many
groups: the section is skipped if it is absent, and otherwise the atoms, but
not the type ids, decide. -/
theorem matchPart_wr (N : ℕ) (label : String) (p : Part) (es : List (List ℤ))
    (hp : p.n = p.grps.length) (h : ∀ g ∈ p.grps, g.atoms.length = N)
    (hl : p.grps ≠ [] → es.length = p.grps.length) (n : ℤ) (m : Bool) (ws : List Word)
    (hw : NotLab label ws) :
    matchPart N label n (es.map Out.ok) m (wrPart label p ++ ws) =
      ok (m && (decide (p.grps = []) ||
        (decide (p.n = n) && decide (p.grps.map Grp.atoms = es))), ws) := by
  unfold wrPart matchPart
  by_cases hpos : 0 < p.n
  · have hne : p.grps ≠ [] := by
      intro h0; rw [hp, h0] at hpos; simp at hpos
    rw [if_pos hpos]
    simp only [optLabel, List.cons_append, if_true, rdNum, ok_bind]
    rw [matchGrps_wr N 0 es p.grps h (hl hne)]
    simp [hne, Bool.and_assoc]
  · have he : p.grps = [] := List.length_eq_zero_iff.mp (by omega)
    rw [if_neg hpos, List.nil_append, optLabel_notLab hw]
    simp [he]

/-- Shape of the groups of a species. -/
def Shape (N : ℕ) (p : Part) : Prop := p.n = p.grps.length ∧ ∀ g ∈ p.grps, g.atoms.length = N

/-- What is common to all species accepted by the program. -/
structure SpShape (s : Sp) : Prop where
  types : (s.types.length : ℤ) = s.nAtom
  bonds : Shape 2 s.bonds
  angles : Shape 3 s.angles
  dihedrals : Shape 4 s.dihedrals

theorem spShape_of_read {cfg : Cfg} {f g : PFile} {b : Base} (hr : readBase cfg f = ok (b, g)) :
    SpShape b.sp := by
  obtain ⟨m, ts, gb, ga, gd, pb, pa, pd, hm, hts, hgb, hga, hgd, hca, hcd, hpb, hpa, hpd, hsp, hv⟩
    := readBase_spec hr
  obtain ⟨ib, rfl⟩ := initIds_part hpb
  obtain ⟨ia, rfl⟩ := initIds_part hpa
  obtain ⟨id, rfl⟩ := initIds_part hpd
  rw [hsp]
  exact ⟨by simp only []; exact_mod_cast hts, ⟨rfl, hgb⟩, ⟨rfl, hga⟩, ⟨rfl, hgd⟩⟩

theorem expect_eq (gs : List Grp) : expect gs = (gs.map Grp.atoms).map Out.ok := by
  simp [expect, List.map_map, Function.comp_def]

theorem matchPartIf_none (c : Bool) (N : ℕ) (label : String) (p : Part)
    (hp : p.n = p.grps.length) (h0 : p.grps = []) (n : ℤ) (es : List (Out (List ℤ))) (m : Bool)
    (ws : List Word) (hw : NotLab label ws) :
    matchPartIf c N label n es m ((if c then wrPart label p else []) ++ ws) = ok (m, ws) := by
  have hz : ¬ (0 < p.n) := by rw [hp, h0]; simp
  cases c
  · simp [matchPartIf]
  · simp [matchPartIf, matchPart, wrPart, hz, optLabel_notLab hw]

/-- **Comparison of species without angles.** The structure of another species
with the same numbers of atoms, bonds and dihedrals matches if and only if the
atom types and the atoms of all groups agree. -/
theorem C55_match_iff_partial {cfg : Cfg} {s u : Sp} (hs : SpShape s) (hu : SpShape u)
    (ht : u.types.length = s.types.length)
    (hb : u.bonds.grps.length = s.bonds.grps.length)
    (hd : u.dihedrals.grps.length = s.dihedrals.grps.length)
    (ha : u.angles.grps = []) (ws : List Word) (hw : Follows ws) :
    ∃ r, matchStructure cfg s (writeStructure cfg u ++ ws) = ok (r, ws) ∧
      (r = true ↔ u.types = s.types ∧ u.bonds.grps.map Grp.atoms = s.bonds.grps.map Grp.atoms ∧
        (cfg.dihedral = true →
          u.dihedrals.grps.map Grp.atoms = s.dihedrals.grps.map Grp.atoms)) := by
  have n3 : NotLab "nDihedral" ws := fun r e => (hw _ _ e).2.2 rfl
  have n2 : NotLab "nAngle" ws := fun r e => (hw _ _ e).2.1 rfl
  have n1 : NotLab "nBond" ws := fun r e => (hw _ _ e).1 rfl
  have hn : u.nAtom = s.nAtom := by rw [← hs.types, ← hu.types, ht]
  have hbn : u.bonds.n = s.bonds.n := by rw [hs.bonds.1, hu.bonds.1, hb]
  have hdn : u.dihedrals.n = s.dihedrals.n := by rw [hs.dihedrals.1, hu.dihedrals.1, hd]
  simp only [matchStructure, writeStructure, List.cons_append, List.append_assoc, rdLabel, if_true,
    ok_bind, rdNum]
  rw [matchTypes_wr 0 _ _ ht.symm, ok_bind]
  simp only []
  rw [expect_eq, matchPart_wr 2 "nBond" u.bonds _ hu.bonds.1 hu.bonds.2
    (fun _ => by rw [List.length_map, hb]) _ _ _
    (notLab_if _ _ (by decide) (notLab_if _ _ (by decide) n1)), ok_bind]
  simp only []
  rw [matchPartIf_none cfg.angle 3 "nAngle" u.angles hu.angles.1 ha _ _ _ _
    (notLab_if _ _ (by decide) n2), ok_bind]
  simp only []
  have hb0 : u.bonds.grps = [] → u.bonds.grps.map Grp.atoms = s.bonds.grps.map Grp.atoms := by
    intro h
    rw [h] at hb ⊢
    rw [List.length_eq_zero_iff.mp hb.symm]
  have hd0 : u.dihedrals.grps = [] →
      u.dihedrals.grps.map Grp.atoms = s.dihedrals.grps.map Grp.atoms := by
    intro h
    rw [h] at hd ⊢
    rw [List.length_eq_zero_iff.mp hd.symm]
  cases hc : cfg.dihedral
  · refine ⟨_, by simp only [matchPartIf, Bool.false_eq_true, if_false, List.nil_append]; rfl, ?_⟩
    simp [hn, hbn]
    tauto
  · simp only [matchPartIf, if_true]
    rw [expect_eq, matchPart_wr 4 "nDihedral" u.dihedrals _ hu.dihedrals.1 hu.dihedrals.2
      (fun _ => by rw [List.length_map, hd]) _ _ _ n3]
    refine ⟨_, rfl, ?_⟩
    simp [hn, hbn, hdn]
    tauto

/-- **Type ids of groups are not compared**: a species without angles matches
the structure of one whose bonds and dihedrals have other types. -/
theorem C55_match_ignores_types {cfg : Cfg} {s u : Sp} (hs : SpShape s) (hu : SpShape u)
    (ht : u.types = s.types)
    (hb : u.bonds.grps.map Grp.atoms = s.bonds.grps.map Grp.atoms)
    (hd : u.dihedrals.grps.map Grp.atoms = s.dihedrals.grps.map Grp.atoms)
    (ha : u.angles.grps = []) (ws : List Word) (hw : Follows ws) :
    matchStructure cfg s (writeStructure cfg u ++ ws) = ok (true, ws) := by
  obtain ⟨r, h1, h2⟩ := C55_match_iff_partial (cfg := cfg) hs hu (by rw [ht])
    (by simpa using congrArg List.length hb) (by simpa using congrArg List.length hd) ha ws hw
  rw [h1, h2.mpr ⟨ht, hb, fun _ => hd⟩]

/-- **Missing sections are not noticed**: a file without bonds, angles and
dihedrals matches every species with the same atom types. -/
theorem C55_match_ignores_missing {cfg : Cfg} {s u : Sp} (hs : SpShape s) (hu : SpShape u)
    (ht : u.types = s.types) (hb : u.bonds.grps = []) (ha : u.angles.grps = [])
    (hd : u.dihedrals.grps = []) (ws : List Word) (hw : Follows ws) :
    matchStructure cfg s (writeStructure cfg u ++ ws) = ok (true, ws) := by
  have n3 : NotLab "nDihedral" ws := fun r e => (hw _ _ e).2.2 rfl
  have n2 : NotLab "nAngle" ws := fun r e => (hw _ _ e).2.1 rfl
  have n1 : NotLab "nBond" ws := fun r e => (hw _ _ e).1 rfl
  have hn : u.nAtom = s.nAtom := by rw [← hs.types, ← hu.types, ht]
  simp only [matchStructure, writeStructure, List.cons_append, List.append_assoc, rdLabel, if_true,
    ok_bind, rdNum]
  rw [matchTypes_wr 0 _ _ (by rw [ht]), ok_bind]
  simp only []
  have hbonds := matchPartIf_none true 2 "nBond" u.bonds hu.bonds.1 hb s.bonds.n
    (expect s.bonds.grps) (decide (u.nAtom = s.nAtom) && decide (u.types = s.types)) _
    (notLab_if (l := "nAngle") cfg.angle u.angles (by decide)
      (notLab_if (l := "nDihedral") cfg.dihedral u.dihedrals (by decide) n1))
  simp only [matchPartIf, if_true] at hbonds
  rw [hbonds, ok_bind]
  simp only []
  rw [matchPartIf_none cfg.angle 3 "nAngle" u.angles hu.angles.1 ha _ _ _ _
    (notLab_if _ _ (by decide) n2), ok_bind]
  simp only []
  rw [matchPartIf_none cfg.dihedral 4 "nDihedral" u.dihedrals hu.dihedrals.1 hd _ _ _ _ n3]
  simp [hn, ht]

theorem matchGrps_ub (N i : ℕ) (gs ds : List Grp) (hg : ∀ g ∈ gs, g.atoms.length = N)
    (hl : ds.length < gs.length) (es : List Grp) (he : es.length = gs.length) (m : Bool)
    (ws : List Word) : matchGrps N (expectAngles es ds) m (wrGrps i gs ++ ws) = ub := by
  induction gs generalizing i ds es m with
  | nil => simp at hl
  | cons g gs ih =>
    cases es with
    | nil => cases he
    | cons e es =>
      cases ds with
      | nil =>
        simp only [expectAngles, matchGrps, wrGrps, wrGrp, List.cons_append, List.append_assoc,
          List.nil_append, rdNum, ok_bind]
        rw [← hg g (by simp), rdNums_wr, ok_bind]
        simp only [rdNum, ok_bind]
        rfl
      | cons d ds =>
        simp only [List.length_cons, Nat.add_lt_add_iff_right, Nat.add_right_cancel_iff] at hl he
        simp only [expectAngles, matchGrps, wrGrps, wrGrp, List.cons_append, List.append_assoc,
          List.nil_append, rdNum, ok_bind]
        rw [← hg g (by simp), rdNums_wr, ok_bind]
        simp only [rdNum, ok_bind]
        rw [hg g (by simp)]
        exact ih (i + 1) ds (fun x hx => hg x (by simp [hx])) hl es he _

/-- **Linear chains with angles cannot be compared.** A species with more angles
than dihedrals, compared with its own structure, reads beyond the end of its
dihedrals. -/
theorem C55_match_angles_ub {cfg : Cfg} (hc : cfg.angle = true) {s : Sp} (hs : SpShape s)
    (hl : s.dihedrals.grps.length < s.angles.grps.length) (ws : List Word) (hw : Follows ws) :
    matchStructure cfg s (writeStructure cfg s ++ ws) = ub := by
  have n1 : NotLab "nBond" ws := fun r e => (hw _ _ e).1 rfl
  simp only [matchStructure, writeStructure, List.cons_append, List.append_assoc, rdLabel, if_true,
    ok_bind, rdNum]
  rw [matchTypes_wr 0 _ _ rfl, ok_bind]
  simp only []
  rw [expect_eq, matchPart_wr 2 "nBond" s.bonds _ hs.bonds.1 hs.bonds.2
    (fun _ => by rw [List.length_map]) _ _ _
    (notLab_if _ _ (by decide) (notLab_if _ _ (by decide) n1)), ok_bind]
  simp only []
  have hpos : 0 < s.angles.n := by rw [hs.angles.1]; omega
  simp only [hc, matchPartIf, if_true, matchPart, wrPart, hpos, List.cons_append, optLabel, rdNum,
    ok_bind]
  rw [matchGrps_ub 3 0 _ _ hs.angles.2 hl _ rfl, ub_bind]

/-- The molecule of the example of `C55_roundtrip` has more angles than dihedrals. -/
example : ∃ b g, readBase ⟨true, true⟩ [("moleculeCapacity", [3]), ("nAtom", [3]),
    ("atomTypeIds", [0, 1, 0]), ("nBond", [2]), ("speciesBonds", [0, 1, 0, 1, 2, 0]),
    ("nAngle", [1]), ("speciesAngles", [0, 1, 2, 5]), ("nDihedral", [0])] = ok (b, g) ∧
    matchStructure ⟨true, true⟩ b.sp (writeStructure ⟨true, true⟩ b.sp) = ub := by
  exact ⟨_, _, rfl, rfl⟩

end Verif.Species
