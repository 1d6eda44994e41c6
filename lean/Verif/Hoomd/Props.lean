/-
HOOMD configuration files (C88).
-/
import Verif.Hoomd.Model
import Mathlib.Tactic.Linarith
import Mathlib.Tactic.LinearCombination
import Mathlib.Tactic.FieldSimp
import Mathlib.Tactic.Ring
import Mathlib.Data.List.Nodup

set_option autoImplicit false

namespace Verif.Hoomd

open Verif.Cpp
open Verif.Cpp.Out

/-! ### Names of types -/

/-- What a map holds, as a list. -/
def Holds (m : TypeMap) (l : List (ℤ × String)) : Prop :=
  (∀ n i, m.ids n = some i ↔ (i, n) ∈ l) ∧ (∀ i n, m.names i = some n ↔ (i, n) ∈ l)

theorem holds_none (m : TypeMap) (l : List (ℤ × String)) (h : Holds m l) (i : ℤ) (n : String) :
    ((m.ids n).isNone = true ↔ n ∉ l.map Prod.snd) ∧ ((m.names i).isNone = true ↔ i ∉ l.map Prod.fst) := by
  constructor
  · rw [Option.isNone_iff_eq_none, Option.eq_none_iff_forall_ne_some]
    constructor
    · intro h1 h2
      obtain ⟨⟨j, k⟩, h3, h4⟩ := List.mem_map.1 h2
      simp only at h4; subst h4
      exact h1 j ((h.1 _ _).2 h3)
    · intro h1 j h2
      exact h1 (List.mem_map.2 ⟨(j, n), (h.1 _ _).1 h2, rfl⟩)
  · rw [Option.isNone_iff_eq_none, Option.eq_none_iff_forall_ne_some]
    constructor
    · intro h1 h2
      obtain ⟨⟨j, k⟩, h3, h4⟩ := List.mem_map.1 h2
      simp only at h4; subst h4
      exact h1 k ((h.2 _ _).2 h3)
    · intro h1 j h2
      exact h1 (List.mem_map.2 ⟨(i, j), (h.2 _ _).1 h2, rfl⟩)

theorem insert_holds (m : TypeMap) (l : List (ℤ × String)) (h : Holds m l) (i : ℤ) (n : String)
    (h1 : n ∉ l.map Prod.snd) (h2 : i ∉ l.map Prod.fst) :
    ∃ m', m.insert i n = ok m' ∧ Holds m' (l ++ [(i, n)]) := by
  have e := holds_none m l h i n
  refine ⟨_, by rw [TypeMap.insert, check_true (e.1.2 h1), ok_bind, check_true (e.2.2 h2), ok_bind], ?_, ?_⟩
  · intro k j
    by_cases hk : k = n
    · subst hk
      have : (j, k) ∉ l := fun h3 => h1 (List.mem_map.2 ⟨_, h3, rfl⟩)
      simp [this, eq_comm]
    · simp [hk, h.1]
  · intro j k
    by_cases hj : j = i
    · subst hj
      have : (j, k) ∉ l := fun h3 => h2 (List.mem_map.2 ⟨_, h3, rfl⟩)
      simp [this, eq_comm]
    · simp [hj, h.2]

theorem insert_throw (m : TypeMap) (l : List (ℤ × String)) (h : Holds m l) (i : ℤ) (n : String)
    (h1 : ¬ (n ∉ l.map Prod.snd ∧ i ∉ l.map Prod.fst)) : m.insert i n = Out.throw := by
  have e := holds_none m l h i n
  rw [TypeMap.insert]
  by_cases h2 : n ∉ l.map Prod.snd
  · rw [check_true (e.1.2 h2), ok_bind, check_false (fun h3 => h1 ⟨h2, e.2.1 h3⟩), throw_bind]
  · rw [check_false (fun h3 => h2 (e.1.1 h3)), throw_bind]

theorem read_aux (l : List (ℤ × String)) : ∀ (m : TypeMap) (l0 : List (ℤ × String)), Holds m l0 →
    (l0.map Prod.snd).Nodup → (l0.map Prod.fst).Nodup →
    (((l0 ++ l).map Prod.snd).Nodup ∧ ((l0 ++ l).map Prod.fst).Nodup →
      ∃ m', m.read l = ok m' ∧ Holds m' (l0 ++ l)) ∧
    (¬ (((l0 ++ l).map Prod.snd).Nodup ∧ ((l0 ++ l).map Prod.fst).Nodup) → m.read l = Out.throw) := by
  induction l with
  | nil =>
    intro m l0 h h1 h2
    simp only [List.append_nil]
    exact ⟨fun _ => ⟨m, by rw [TypeMap.read, loop_nil], h⟩, fun h3 => absurd ⟨h1, h2⟩ h3⟩
  | cons x l ih =>
    intro m l0 h h1 h2
    obtain ⟨i, n⟩ := x
    have e : l0 ++ (i, n) :: l = (l0 ++ [(i, n)]) ++ l := by simp
    rw [TypeMap.read, loop_cons]
    by_cases h3 : n ∉ l0.map Prod.snd ∧ i ∉ l0.map Prod.fst
    · obtain ⟨m', h4, h5⟩ := insert_holds m l0 h i n h3.1 h3.2
      have := ih m' (l0 ++ [(i, n)]) h5
        (by rw [List.map_append]; exact List.nodup_append.2 ⟨h1, by simp, by
              intro a ha b hb; simp at hb; subst hb; intro h6; subst h6; exact h3.1 ha⟩)
        (by rw [List.map_append]; exact List.nodup_append.2 ⟨h2, by simp, by
              intro a ha b hb; simp at hb; subst hb; intro h6; subst h6; exact h3.2 ha⟩)
      rw [h4, ok_bind, e]
      exact this
    · rw [insert_throw m l0 h i n h3, throw_bind]
      refine ⟨fun h4 => absurd ?_ h3, fun _ => rfl⟩
      rw [List.map_append, List.map_append] at h4
      refine ⟨fun h5 => ?_, fun h5 => ?_⟩
      · exact (List.nodup_append.1 h4.1).2.2 n h5 n (by simp) rfl
      · exact (List.nodup_append.1 h4.2).2.2 i h5 i (by simp) rfl

theorem holds_empty : Holds TypeMap.empty [] := by
  constructor <;> intro _ _ <;> simp [TypeMap.empty]

/-- **C88**, a list of types is accepted exactly when no name and no identifier is there twice. -/
theorem C88_accept (l : List (ℤ × String)) :
    ((∃ m, TypeMap.empty.read l = ok m) ↔ (l.map Prod.snd).Nodup ∧ (l.map Prod.fst).Nodup) ∧
    (TypeMap.empty.read l = Out.throw ↔ ¬ ((l.map Prod.snd).Nodup ∧ (l.map Prod.fst).Nodup)) := by
  have := read_aux l TypeMap.empty [] holds_empty (by simp) (by simp)
  simp only [List.nil_append] at this
  by_cases h : (l.map Prod.snd).Nodup ∧ (l.map Prod.fst).Nodup
  · obtain ⟨m, h1, _⟩ := this.1 h
    simp [h1, h]
  · simp [this.2 h, h]

/-- **C88**, names and identifiers: a name has the identifier `i` exactly when the identifier `i` has that
name, and exactly when the pair was in the list read. -/
theorem C88_types (l : List (ℤ × String)) (m : TypeMap) (h : TypeMap.empty.read l = ok m) (i : ℤ)
    (n : String) : (m.id n = ok i ↔ (i, n) ∈ l) ∧ (m.name i = ok n ↔ (i, n) ∈ l) := by
  have h1 := ((C88_accept l).1.1 ⟨m, h⟩)
  obtain ⟨m', h2, h3⟩ := (read_aux l TypeMap.empty [] holds_empty (by simp) (by simp)).1 (by simpa using h1)
  rw [h] at h2
  cases h2
  simp only [List.nil_append] at h3
  rw [← h3.1 n i]
  constructor
  · unfold TypeMap.id
    cases m.ids n <;> simp
  · rw [h3.1 n i, ← h3.2 i n]
    unfold TypeMap.name
    cases m.names i <;> simp

/-! ### Groups -/

/-- The words of one group. -/
def groupToks (n : String) (g : Group) : List Tok := Tok.word n :: g.atomIds.map Tok.int

theorem write_aux (map : TypeMap) (l : List Group) : ∀ f f', loop (fun f g => do
    let name ← map.name g.typeId
    ok (f ++ Tok.word name :: g.atomIds.map Tok.int)) l f = ok f' →
    ∃ ns : List String, List.Forall₂ (fun n g => map.name (Group.typeId g) = ok n) ns l ∧
      f' = f ++ (List.zipWith groupToks ns l).flatten := by
  induction l with
  | nil =>
    intro f f' h
    rw [loop_nil] at h
    cases h
    exact ⟨[], .nil, by simp⟩
  | cons g l ih =>
    intro f f' h
    rw [loop_cons, bind_eq_ok] at h
    obtain ⟨f1, h1, h2⟩ := h
    rw [bind_eq_ok] at h1
    obtain ⟨n, h3, h4⟩ := h1
    cases h4
    obtain ⟨ns, h5, h6⟩ := ih _ _ h2
    exact ⟨n :: ns, .cons h3 h5, by rw [h6]; simp [groupToks]⟩

theorem write_form (label : String) (map : TypeMap) (l : List Group) (f : List Tok)
    (h : writeGroups label map l = ok f) :
    ∃ ns : List String, List.Forall₂ (fun n g => map.name (Group.typeId g) = ok n) ns l ∧
      f = Tok.start label l.length :: ((List.zipWith groupToks ns l).flatten ++ [Tok.stop label]) := by
  rw [writeGroups, bind_eq_ok] at h
  obtain ⟨f1, h1, h2⟩ := h
  cases h2
  obtain ⟨ns, h3, h4⟩ := write_aux map l _ _ h1
  exact ⟨ns, h3, by rw [h4]; simp⟩

theorem readLoop (map : TypeMap) (rest : List Tok) (l : List Group) :
    ∀ (ns : List String) (a : ℕ) (acc : List Group),
    List.Forall₂ (fun n g => map.id n = ok (Group.typeId g)) ns l → (∀ g ∈ l, g.atomIds.length = 2) →
    loop (readGroup map) (List.range' a l.length) (acc, (List.zipWith groupToks ns l).flatten ++ rest)
      = ok (acc ++ l.mapIdx (fun k g => ⟨((a + k : ℕ) : ℤ), g.typeId, g.atomIds⟩), rest) := by
  induction l with
  | nil =>
    intro ns a acc h _
    cases h
    simp [loop_nil]
  | cons g l ih =>
    intro ns a acc h h2
    cases h with
    | cons h3 h4 =>
      rename_i n ns
      obtain ⟨b, c, h5⟩ := List.length_eq_two.1 (h2 g (by simp))
      have e : readGroup map (acc, (List.zipWith groupToks (n :: ns) (g :: l)).flatten ++ rest) a
          = ok (acc ++ [⟨a, g.typeId, g.atomIds⟩], (List.zipWith groupToks ns l).flatten ++ rest) := by
        simp [readGroup, groupToks, h5, getName, getInt, h3, ok_bind]
      rw [List.length_cons, List.range'_succ, loop_cons, e, ok_bind,
        ih ns (a + 1) _ h4 (fun g hg => h2 g (List.mem_cons_of_mem _ hg))]
      congr 2
      rw [List.append_assoc]
      congr 1
      rw [List.mapIdx_cons]
      simp [Nat.add_assoc, Nat.add_comm 1]

/-- **C88**, bonds: bonds that were written are read with the same types and the same atoms, numbered by
their places. -/
theorem C88_bonds (types : List (ℤ × String)) (m : TypeMap) (hm : TypeMap.empty.read types = ok m)
    (label : String) (l : List Group) (h2 : ∀ g ∈ l, g.atomIds.length = 2) (f rest : List Tok)
    (h : writeGroups label m l = ok f) :
    readGroups m (f ++ rest)
      = ok (l.mapIdx (fun k g => ⟨(k : ℤ), g.typeId, g.atomIds⟩), rest) := by
  obtain ⟨ns, h3, h4⟩ := write_form label m l f h
  have h5 : List.Forall₂ (fun n g => m.id n = ok (Group.typeId g)) ns l :=
    h3.imp (fun n g h => ((C88_types types m hm _ _).1).2 (((C88_types types m hm _ _).2).1 h))
  have := readLoop m (Tok.stop label :: rest) l ns 0 [] h5 h2
  subst h4
  simp only [readGroups, List.cons_append, List.append_assoc, List.nil_append, Int.toNat_natCast,
    List.range_eq_range', this, ok_bind]
  simp [endTag, check_true]

/-- **C88**, groups are written exactly when the types of all are known. -/
theorem C88_written (types : List (ℤ × String)) (m : TypeMap) (hm : TypeMap.empty.read types = ok m)
    (label : String) (l : List Group) :
    (∃ f, writeGroups label m l = ok f) ↔ ∀ g ∈ l, g.typeId ∈ types.map Prod.fst := by
  constructor
  · rintro ⟨f, h⟩ g hg
    obtain ⟨ns, h3, h9⟩ := write_form label m l f h
    clear h h9
    induction h3 with
    | nil => simp at hg
    | cons h4 _ ih =>
      rcases List.mem_cons.1 hg with h5 | h5
      · subst h5
        exact List.mem_map.2 ⟨_, ((C88_types types m hm _ _).2).1 h4, rfl⟩
      · exact ih h5
  · intro h
    have : ∀ f, ∃ f', loop (fun f g => do
        let name ← m.name (Group.typeId g)
        ok (f ++ Tok.word name :: g.atomIds.map Tok.int)) l f = ok f' := by
      induction l with
      | nil => intro f; exact ⟨f, by rw [loop_nil]⟩
      | cons g l ih =>
        intro f
        obtain ⟨⟨i, n⟩, h1, h2⟩ := List.mem_map.1 (h g (by simp))
        simp only at h2; subst h2
        rw [loop_cons, ((C88_types types m hm _ _).2).2 h1, ok_bind, ok_bind]
        exact ih (fun g hg => h g (List.mem_cons_of_mem _ hg)) _
    obtain ⟨f', h1⟩ := this [Tok.start label l.length]
    exact ⟨_, by rw [writeGroups, h1, ok_bind]⟩

/-- **C88**, disagreement of reader and writer: a node of angles or dihedrals that the writer wrote
is never read: two atoms are read of each group, and the third is taken for the name of a type. -/
theorem C88_angles_violated (types : List (ℤ × String)) (m : TypeMap)
    (hm : TypeMap.empty.read types = ok m) (hn : ∀ i : ℤ, toString i ∉ types.map Prod.snd)
    (label : String) (l : List Group) (h0 : l ≠ []) (h2 : ∀ g ∈ l, 3 ≤ g.atomIds.length)
    (f rest : List Tok) (h : writeGroups label m l = ok f) : readGroups m (f ++ rest) = Out.throw := by
  obtain ⟨ns, h3, h4⟩ := write_form label m l f h
  cases h3 with
  | nil => exact absurd rfl h0
  | cons h5 h6 =>
    rename_i n g ns l
    have hi : m.id n = ok g.typeId := ((C88_types types m hm _ _).1).2 (((C88_types types m hm _ _).2).1 h5)
    have ht : ∀ i : ℤ, m.id (toString i) = Out.throw := by
      intro i
      have : ∀ j, m.id (toString i) ≠ ok j := fun j h7 =>
        hn i (List.mem_map.2 ⟨_, ((C88_types types m hm _ _).1).1 h7, rfl⟩)
      unfold TypeMap.id at this ⊢
      cases h8 : m.ids (toString i) with
      | none => rfl
      | some j => exact absurd (by rw [h8]) (this j)
    have hg := h2 g (by simp)
    obtain ⟨a, b, c, t, h7⟩ : ∃ a b c t, g.atomIds = a :: b :: c :: t := by
      match g.atomIds, hg with
      | a :: b :: c :: t, _ => exact ⟨a, b, c, t, rfl⟩
    subst h4
    simp only [readGroups, List.cons_append, Int.toNat_natCast, List.length_cons,
      List.range_eq_range', List.range'_succ, loop_cons, List.zipWith_cons_cons, List.flatten_cons,
      groupToks, h7, List.map_cons, readGroup, getName, getInt, ok_bind, hi]
    cases l with
    | nil => simp [loop_nil, ok_bind, endTag]
    | cons g' l =>
      simp only [List.length_cons, List.range'_succ, loop_cons, readGroup, getName, ok_bind, ht, throw_bind]

/-- **C88**, disagreement: no auxiliary file makes the types of dihedrals known, so that no configuration
with a dihedral is written, and no node of dihedrals is read. -/
theorem C88_dihedrals_violated (atoms bonds angles : List (ℤ × String)) (m : Maps)
    (hm : readAuxiliary atoms bonds angles = ok m) (label : String) :
    (∀ l : List Group, l ≠ [] → writeGroups label m.dihedral l = Out.throw) ∧
    (∀ (num : ℤ) (f : List Tok), 0 < num → readGroups m.dihedral (Tok.start label num :: f) = Out.throw) := by
  have hd : m.dihedral = TypeMap.empty := by
    simp only [readAuxiliary, bind_eq_ok] at hm
    obtain ⟨a, _, b, _, c, _, h⟩ := hm
    cases h
    rfl
  rw [hd]
  constructor
  · intro l h
    cases l with
    | nil => exact absurd rfl h
    | cons g l => simp [writeGroups, loop_cons, TypeMap.name, TypeMap.empty, throw_bind]
  · intro num f h
    obtain ⟨k, hk⟩ : ∃ k, num.toNat = k + 1 := ⟨num.toNat - 1, by omega⟩
    simp only [readGroups, hk, List.range_eq_range', List.range'_succ, loop_cons, readGroup]
    have : (do let a ← getName f
               let t ← TypeMap.empty.id a.1
               let b ← getInt a.2
               let c ← getInt b.2
               ok ([] ++ [(⟨((0 : ℕ) : ℤ), t, [b.1, c.1]⟩ : Group)], c.2)) = (Out.throw : Out (List Group × List Tok)) := by
      unfold getName
      split <;> simp [TypeMap.id, TypeMap.empty, throw_bind, ok_bind]
    rw [this]
    rfl

/-- The auxiliary file: the maps of atoms, bonds and angles are those of the lists in it. -/
theorem C88_auxiliary (atoms bonds angles : List (ℤ × String)) (m : Maps) :
    readAuxiliary atoms bonds angles = ok m ↔ TypeMap.empty.read atoms = ok m.atom ∧
      TypeMap.empty.read bonds = ok m.bond ∧ TypeMap.empty.read angles = ok m.angle ∧
      m.dihedral = TypeMap.empty := by
  obtain ⟨ma, mb, mc, md⟩ := m
  simp only [readAuxiliary, bind_eq_ok]
  constructor
  · rintro ⟨a, ha, b, hb, c, hc, h⟩
    cases h
    exact ⟨ha, hb, hc, rfl⟩
  · rintro ⟨ha, hb, hc, h⟩
    subst h
    exact ⟨_, ha, _, hb, _, hc, rfl⟩

/-! ### Atoms -/

open Classical in
/-- **C88**, a position in the cell is written in the cell about the origin, and is read as it was. -/
theorem C88_position (L x : ℝ) (hL : 0 < L) (h0 : 0 ≤ x) (h1 : x < L) :
    -(L / 2) ≤ written L x ∧ written L x < L / 2 ∧ shift L (written L x) = x := by
  have hs : shift L x = x := by rw [shift, if_neg (by linarith), if_neg (by linarith)]
  have hr : L * (x / L) = x := by field_simp
  by_cases h : x / L ≥ 1 / 2
  · have hw : written L x = x - L := by
      simp only [written, hs]; rw [if_pos h]; linear_combination hr
    have : L / 2 ≤ x := by
      have := mul_le_mul_of_nonneg_left h hL.le
      linarith
    rw [hw]
    refine ⟨by linarith, by linarith, ?_⟩
    rw [shift, if_neg (by linarith), if_pos (by linarith)]; ring
  · have hw : written L x = x := by
      simp only [written, hs]; rw [if_neg h]; exact hr
    have : x < L / 2 := by
      have := mul_lt_mul_of_pos_left (not_le.1 h) hL
      linarith
    rw [hw]
    exact ⟨by linarith, this, hs⟩

open Classical in
/-- **C88**, a position within one period of the cell is brought into the cell by the writer: what is read
differs from it by a whole number of periods. -/
theorem C88_period (L x : ℝ) (hL : 0 < L) (h0 : -L ≤ x) (h1 : x < 2 * L) :
    ∃ k : ℤ, shift L (written L x) = x + k * L ∧ 0 ≤ shift L (written L x) ∧ shift L (written L x) < L := by
  have key : ∃ k : ℤ, shift L x = x + k * L ∧ 0 ≤ shift L x ∧ shift L x < L := by
    rw [shift]
    by_cases h2 : x ≥ L
    · rw [if_pos h2]; exact ⟨-1, by push_cast; ring, by linarith, by linarith⟩
    · rw [if_neg h2]
      by_cases h3 : x < 0
      · rw [if_pos h3]; exact ⟨1, by push_cast; ring, by linarith, by linarith⟩
      · rw [if_neg h3]; exact ⟨0, by push_cast; ring, by linarith, by linarith⟩
  obtain ⟨k, h2, h3, h4⟩ := key
  have hs : shift L (shift L x) = shift L x := by
    conv_lhs => rw [shift]
    rw [if_neg (by linarith), if_neg (by linarith)]
  have hw : written L x = written L (shift L x) := by simp only [written, hs]
  rw [hw, (C88_position L (shift L x) hL h3 h4).2.2]
  exact ⟨k, h2, h3, h4⟩

theorem names_aux (map : TypeMap) (l : List Atom) : ∀ t t', loop (fun t a => do
    let n ← map.name (Atom.typeId a)
    ok (t ++ [n])) l t = ok t' →
    ∃ ns : List String, List.Forall₂ (fun n a => map.name (Atom.typeId a) = ok n) ns l ∧ t' = t ++ ns := by
  induction l with
  | nil =>
    intro t t' h
    rw [loop_nil] at h
    cases h
    exact ⟨[], .nil, by simp⟩
  | cons a l ih =>
    intro t t' h
    rw [loop_cons, bind_eq_ok] at h
    obtain ⟨t1, h1, h2⟩ := h
    rw [bind_eq_ok] at h1
    obtain ⟨n, h3, h4⟩ := h1
    cases h4
    obtain ⟨ns, h5, h6⟩ := ih _ _ h2
    exact ⟨n :: ns, .cons h3 h5, by rw [h6]; simp⟩

theorem ids_aux (map : TypeMap) (ns : List String) (l : List Atom)
    (h : List.Forall₂ (fun n a => map.id n = ok (Atom.typeId a)) ns l) : ∀ t, loop (fun t n => do
    let i ← map.id n
    ok (t ++ [i])) ns t = ok (t ++ l.map Atom.typeId) := by
  induction h with
  | nil => intro t; simp [loop_nil]
  | cons h1 _ ih =>
    intro t
    rw [loop_cons, h1, ok_bind, ok_bind, ih]
    simp

/-- **C88**, atoms: atoms in the cell that were written are read in their order, with their types and
positions, and are numbered by their places in the storage of the writer. -/
theorem C88_atoms (types : List (ℤ × String)) (m : TypeMap) (hm : TypeMap.empty.read types = ok m)
    (L : ℝ) (hL : 0 < L) (l : List Atom) (hc : ∀ a ∈ l, 0 ≤ a.pos ∧ a.pos < L)
    (f : List ℝ × List String) (h : writeAtoms L m l = ok f) :
    readAtoms L m f = ok (l.mapIdx fun k a => ⟨(k : ℤ), a.typeId, a.pos⟩) := by
  rw [writeAtoms, bind_eq_ok] at h
  obtain ⟨ns, h1, h2⟩ := h
  cases h2
  obtain ⟨ns', h3, h4⟩ := names_aux m l _ _ h1
  simp only [List.nil_append] at h4
  subst h4
  have h5 : List.Forall₂ (fun n a => m.id n = ok (Atom.typeId a)) ns l :=
    h3.imp (fun n g h => ((C88_types types m hm _ _).1).2 (((C88_types types m hm _ _).2).1 h))
  have hlen : (l.map fun a => written L a.pos).length = ns.length := by
    rw [List.length_map, h5.length_eq]
  rw [readAtoms, check_true hlen, ok_bind, ids_aux m ns l h5 [], ok_bind]
  congr 1
  apply List.ext_getElem
  · simp
  · intro k h6 h7
    have h8 : k < l.length := by simpa using h7
    simp [(C88_position L _ hL (hc l[k] (List.getElem_mem h8)).1 (hc l[k] (List.getElem_mem h8)).2).2.2]

/-- **C88**, atoms stored in the order of their identifiers are read as they were. -/
theorem C88_ordered (types : List (ℤ × String)) (m : TypeMap) (hm : TypeMap.empty.read types = ok m)
    (L : ℝ) (hL : 0 < L) (l : List Atom) (hc : ∀ a ∈ l, 0 ≤ a.pos ∧ a.pos < L)
    (ho : ∀ (k : ℕ) (hk : k < l.length), l[k].id = k)
    (f : List ℝ × List String) (h : writeAtoms L m l = ok f) : readAtoms L m f = ok l := by
  rw [C88_atoms types m hm L hL l hc f h]
  congr 1
  apply List.ext_getElem
  · simp
  · intro k h6 h7
    simp [← ho k h7]

/-- **C88**, disagreement: atoms stored in any other order are read with other identifiers, though the
groups in the file name atoms by the identifiers they had. -/
theorem C88_order_violated (types : List (ℤ × String)) (m : TypeMap) (hm : TypeMap.empty.read types = ok m)
    (L : ℝ) (hL : 0 < L) (l : List Atom) (hc : ∀ a ∈ l, 0 ≤ a.pos ∧ a.pos < L)
    (k : ℕ) (hk : k < l.length) (ho : l[k].id ≠ k)
    (f : List ℝ × List String) (h : writeAtoms L m l = ok f) :
    ∃ l', readAtoms L m f = ok l' ∧ ∃ hk' : k < l'.length, l'[k].pos = l[k].pos ∧ l'[k].id ≠ l[k].id := by
  refine ⟨_, C88_atoms types m hm L hL l hc f h, by simpa using hk, by simp, ?_⟩
  simpa using fun h => ho h.symm

end Verif.Hoomd
