/-
C71: random configurations.
-/
import Verif.Generate.Place

set_option autoImplicit false

namespace Verif.Generate

open Verif.Boundary Verif.McCellList Verif.McCell
open Run

variable {g : Setting} {bravais : Fin 3 → Vec} {A S : Finset ℕ}

/-- The atoms `S` are in the primary cell, do not overlap, are listed by the cell
list where they are, and the molecules `mols` are bonded. -/
structure Placed (g : Setting) (bravais : Fin 3 → Vec) (S : Finset ℕ) (mols : List (List ℕ))
    (s : St) : Prop where
  unit : ∀ a ∈ S, InUnit (g.gen (s.pos a))
  apart : Apart g S s.pos
  listed : Tracks g.gen g.cellCap s.cells ⟨S, s.pos⟩
  bonded : ∀ mol ∈ mols, Bonded g bravais s.pos mol

theorem Held.placed {mols : List (List ℕ)} {s : St} (h : Held g S s)
    (hb : ∀ mol ∈ mols, Bonded g bravais s.pos mol) : Placed g bravais S mols s :=
  ⟨fun _ ha => h.unit ha, h.apart, Rel.tracks (A := ⟨S, s.pos⟩) h.rel, hb⟩

/-- Infinitely many of the random positions drawn are free, wherever the atoms
placed before are. -/
def FreeSites (g : Setting) (A : Finset ℕ) : Prop :=
  ∀ S ⊆ A, ∀ q, (∀ a ∈ S, InUnit (g.gen (q a))) → Apart g S q → ∀ a ∈ A, a ∉ S → ∀ n,
    ∃ j, n ≤ j ∧ ¬ Overlaps g S q a (g.shift (g.site j))

/-! ### Attempts for one molecule -/

theorem molLoop_post (ok : g.OK bravais A) (hd : 0 < maxDiameter g.diams) {s : St}
    (h : Held g S s) (hS : S ⊆ A) {linear : Bool} {mol : List ℕ} (hm : Fresh A S mol)
    (hp : linear = false → mol.length = 1) (n : ℕ) :
    (whileLoop (going n) (molBody g linear mol) (s, false, 0)).Post (fun x =>
      (∀ c, c ∉ mol → x.1.pos c = s.pos c) ∧
      ((x.2.1 = false ∧ Held g S x.1) ∨
       (x.2.1 = true ∧ Held g (S ∪ mol.toFinset) x.1 ∧ Bonded g bravais x.1.pos mol))) := by
  refine (whileLoop_post (I := fun x : Loop => (∀ c, c ∉ mol → x.1.pos c = s.pos c) ∧
      ((x.2.1 = false ∧ Held g S x.1) ∨
       (x.2.1 = true ∧ Held g (S ∪ mol.toFinset) x.1 ∧ Bonded g bravais x.1.pos mol))) ?_
    ⟨fun _ _ => rfl, .inl ⟨rfl, h⟩⟩).mono fun _ hx => hx.1
  rintro ⟨t, f, i⟩ ⟨h2, h3⟩ hc
  have hf : f = false := And.left (by simpa [going] using hc : f = false ∧ _)
  have hH : Held g S t := by
    rcases h3 with h3 | h3
    · exact h3.2
    · rw [hf] at h3; exact absurd h3.1 (by simp)
  refine (place_post ok hd hH hS hm hp).1.bind fun y hy => ?_
  exact ⟨fun c hc => (hy.1 c hc).trans (h2 c hc), hy.2⟩

theorem molLoop_ends (ok : g.OK bravais A) (hd : 0 < maxDiameter g.diams)
    (hfree : FreeSites g A) {s : St}
    (h : Held g S s) (hS : S ⊆ A) {linear : Bool} {mol : List ℕ} (hm : Fresh A S mol)
    (hp : linear = false → mol.length = 1) (n : ℕ) :
    whileLoop (going n) (molBody g linear mol) (s, false, 0) ≠ .hang := by
  refine whileLoop_ends (I := fun x : Loop => x.2.1 = false → Held g S x.1)
    (μ := fun x => n - x.2.2) ?_ fun _ => h
  rintro ⟨t, f, i⟩ hI hc
  have hc' : f = false ∧ i < n := by simpa [going] using hc
  have hH : Held g S t := hI hc'.1
  obtain ⟨h1, h2⟩ := place_post ok hd hH hS hm hp
  have hne : place g linear mol t ≠ .hang := by
    rw [Ne, h2]
    intro hall
    have hmem : mol.getD 0 0 ∈ mol := by
      cases hmol : mol with
      | nil => exact absurd hmol hm.ne
      | cons a l => simp
    obtain ⟨j, hj, hno⟩ := hfree S hS t.pos (fun a ha => hH.unit ha) hH.apart _
      (hm.mem _ hmem).1 (hm.mem _ hmem).2 t.nSite
    exact hno (hall j hj)
  change (place g linear mol t >>= fun y => Run.ok (y.1, y.2, i + 1)) ≠ .hang ∧ ∀ s',
    (place g linear mol t >>= fun y => Run.ok (y.1, y.2, i + 1)) = .ok s' → _
  cases hw : place g linear mol t with
  | hang => exact absurd hw hne
  | throw => simp
  | ub => simp
  | ok y =>
    rw [hw] at h1
    refine ⟨by simp, fun x hx => ?_⟩
    simp only [ok_bind, Run.ok.injEq] at hx
    subst hx
    refine ⟨fun hb => ?_, fun _ => by change n - (i + 1) < n - i; omega⟩
    rcases h1.2 with e3 | e3
    · exact e3.2
    · exact absurd (hb.symm.trans e3.1) (by simp)

/-! ### Molecules of one species -/

/-- Molecules about to be placed. -/
structure FreshAll (A S : Finset ℕ) (linear : Bool) (mols : List (List ℕ)) : Prop where
  ne : ∀ mol ∈ mols, mol ≠ []
  nodup : mols.flatten.Nodup
  mem : ∀ a ∈ mols.flatten, a ∈ A ∧ a ∉ S
  point : linear = false → ∀ mol ∈ mols, mol.length = 1

theorem FreshAll.head {linear : Bool} {mol : List ℕ} {mols : List (List ℕ)}
    (h : FreshAll A S linear (mol :: mols)) : Fresh A S mol where
  ne := h.ne mol (by simp)
  nodup := by have := h.nodup; rw [List.flatten_cons, List.nodup_append] at this; exact this.1
  mem := fun a ha => h.mem a (by simp [ha])

theorem FreshAll.tail {linear : Bool} {mol : List ℕ} {mols : List (List ℕ)}
    (h : FreshAll A S linear (mol :: mols)) : FreshAll A (S ∪ mol.toFinset) linear mols where
  ne := fun m hm => h.ne m (by simp [hm])
  nodup := by have := h.nodup; rw [List.flatten_cons, List.nodup_append] at this; exact this.2.1
  mem := fun a ha => by
    have h1 := h.mem a (by rw [List.flatten_cons]; exact List.mem_append_right _ ha)
    have h2 := h.nodup
    rw [List.flatten_cons, List.nodup_append] at h2
    refine ⟨h1.1, ?_⟩
    simp only [Finset.mem_union, List.mem_toFinset, not_or]
    exact ⟨h1.2, fun hh => h2.2.2 a hh a ha rfl⟩
  point := fun hl m hm => h.point hl m (by simp [hm])

theorem placeMols_post (ok : g.OK bravais A) (hd : 0 < maxDiameter g.diams) {linear : Bool}
    {mols : List (List ℕ)} : ∀ {S : Finset ℕ} {s : St}, Held g S s → S ⊆ A →
      FreshAll A S linear mols →
      (placeMols g linear mols s).Post fun y =>
        (∀ c, c ∉ mols.flatten → y.1.pos c = s.pos c) ∧
        ((y.2 = true ∧ Held g (S ∪ mols.flatten.toFinset) y.1 ∧
            ∀ mol ∈ mols, Bonded g bravais y.1.pos mol) ∨
         (y.2 = false ∧ ∃ n < mols.length, Held g (S ∪ (mols.take n).flatten.toFinset) y.1 ∧
            ∀ mol ∈ mols.take n, Bonded g bravais y.1.pos mol)) := by
  induction mols with
  | nil =>
    intro S s h hS hf
    exact ⟨fun _ _ => rfl, .inl ⟨rfl, by simpa using h, by simp⟩⟩
  | cons mol mols ih =>
    intro S s h hS hf
    have hh := hf.head
    have hsub : S ∪ mol.toFinset ⊆ A := Finset.union_subset hS fun b hb =>
      (hh.mem b (List.mem_toFinset.1 hb)).1
    simp only [placeMols]
    refine (molLoop_post ok hd h hS hh (fun e => hf.point e mol (by simp)) 200).bind ?_
    rintro x ⟨h1, ⟨h2, h3⟩ | ⟨h2, h3, h4⟩⟩
    · rw [h2, if_neg (by simp)]
      exact ⟨fun c hc => h1 c fun e => hc (by simp [e]), .inr ⟨rfl, 0, by simp, by simpa using h3,
        by simp⟩⟩
    · rw [h2, if_pos rfl]
      refine (ih h3 hsub hf.tail).mono ?_
      rintro y ⟨k1, k2⟩
      have hkeep : ∀ c ∈ mol, y.1.pos c = x.1.pos c := fun c hc => k1 c fun hh' =>
        (hf.tail.mem c hh').2 (by simp [hc])
      refine ⟨fun c hc => ?_, ?_⟩
      · rw [List.flatten_cons, List.mem_append, not_or] at hc
        exact (k1 c hc.2).trans (h1 c hc.1)
      · rcases k2 with ⟨k2, k3, k4⟩ | ⟨k2, n, hn, k3, k4⟩
        · refine .inl ⟨k2, ?_, fun m hm => ?_⟩
          · rw [List.flatten_cons, List.toFinset_append, ← Finset.union_assoc]
            exact k3
          · rcases List.mem_cons.1 hm with rfl | hm
            · exact h4.congr hkeep
            · exact k4 m hm
        · refine .inr ⟨k2, n + 1, by simpa using hn, ?_, fun m hm => ?_⟩
          · rw [List.take_succ_cons, List.flatten_cons, List.toFinset_append,
              ← Finset.union_assoc]
            exact k3
          · rw [List.take_succ_cons] at hm
            rcases List.mem_cons.1 hm with rfl | hm
            · exact h4.congr hkeep
            · exact k4 m hm

theorem placeMols_ends (ok : g.OK bravais A) (hd : 0 < maxDiameter g.diams)
    (hfree : FreeSites g A) {linear : Bool}
    {mols : List (List ℕ)} : ∀ {S : Finset ℕ} {s : St}, Held g S s → S ⊆ A →
      FreshAll A S linear mols → placeMols g linear mols s ≠ .hang := by
  induction mols with
  | nil => intro S s h hS hf; simp [placeMols]
  | cons mol mols ih =>
    intro S s h hS hf
    have hh := hf.head
    have hsub : S ∪ mol.toFinset ⊆ A := Finset.union_subset hS fun b hb =>
      (hh.mem b (List.mem_toFinset.1 hb)).1
    have h1 := molLoop_post ok hd h hS hh (fun e => hf.point e mol (by simp)) 200
    have h2 := molLoop_ends ok hd hfree h hS hh (fun e => hf.point e mol (by simp)) 200
    simp only [placeMols]
    cases hw : whileLoop (going 200) (molBody g linear mol) (s, false, 0) with
    | hang => exact absurd hw h2
    | throw => simp
    | ub => simp
    | ok x =>
      rw [hw] at h1
      rw [ok_bind]
      rcases h1.2 with ⟨h3, h4⟩ | ⟨h3, h4, h5⟩
      · rw [h3, if_neg (by simp)]; simp
      · rw [h3, if_pos rfl]
        exact ih h4 hsub hf.tail

/-! ### All species -/

/-- Molecules of the species `kinds`, distinct and with atoms in `A`. -/
structure Supply (A S : Finset ℕ) (kinds : List Kind) : Prop where
  ne : ∀ k ∈ kinds, ∀ mol ∈ k.mols, mol ≠ []
  nodup : (kinds.flatMap fun k => k.mols.flatten).Nodup
  mem : ∀ a ∈ kinds.flatMap fun k => k.mols.flatten, a ∈ A ∧ a ∉ S
  point : ∀ k ∈ kinds, k.linear = false → ∀ mol ∈ k.mols, mol.length = 1

/-- The atoms of all molecules. -/
def atomsOf (kinds : List Kind) : Finset ℕ := (kinds.flatMap fun k => k.mols.flatten).toFinset

theorem Supply.head {k : Kind} {kinds : List Kind} (h : Supply A S (k :: kinds)) :
    FreshAll A S k.linear k.mols where
  ne := h.ne k (by simp)
  nodup := by have := h.nodup; rw [List.flatMap_cons, List.nodup_append] at this; exact this.1
  mem := fun a ha => h.mem a (by rw [List.flatMap_cons]; exact List.mem_append_left _ ha)
  point := h.point k (by simp)

theorem Supply.tail {k : Kind} {kinds : List Kind} (h : Supply A S (k :: kinds)) :
    Supply A (S ∪ k.mols.flatten.toFinset) kinds where
  ne := fun k' hk => h.ne k' (by simp [hk])
  nodup := by have := h.nodup; rw [List.flatMap_cons, List.nodup_append] at this; exact this.2.1
  mem := fun a ha => by
    have h1 := h.mem a (by rw [List.flatMap_cons]; exact List.mem_append_right _ ha)
    have h2 := h.nodup
    rw [List.flatMap_cons, List.nodup_append] at h2
    refine ⟨h1.1, ?_⟩
    simp only [Finset.mem_union, List.mem_toFinset, not_or]
    exact ⟨h1.2, fun hh => h2.2.2 a hh a ha rfl⟩
  point := fun k' hk => h.point k' (by simp [hk])

theorem atomsOf_cons (k : Kind) (kinds : List Kind) :
    S ∪ atomsOf (k :: kinds) = S ∪ k.mols.flatten.toFinset ∪ atomsOf kinds := by
  unfold atomsOf
  rw [List.flatMap_cons, List.toFinset_append, Finset.union_assoc]

theorem placeKinds_post (ok : g.OK bravais A) (hd : 0 < maxDiameter g.diams)
    {kinds : List Kind} : ∀ {S : Finset ℕ} {s : St}, Held g S s → S ⊆ A → Supply A S kinds →
      (placeKinds g kinds s).Weak fun s' =>
        (∀ c, c ∉ atomsOf kinds → s'.pos c = s.pos c) ∧ Held g (S ∪ atomsOf kinds) s' ∧
        ∀ k ∈ kinds, ∀ mol ∈ k.mols, Bonded g bravais s'.pos mol := by
  induction kinds with
  | nil =>
    intro S s h hS hf
    exact ⟨fun _ _ => rfl, by simpa [atomsOf] using h, by simp⟩
  | cons k kinds ih =>
    intro S s h hS hf
    have hsub : S ∪ k.mols.flatten.toFinset ⊆ A := Finset.union_subset hS fun b hb =>
      (hf.head.mem b (List.mem_toFinset.1 hb)).1
    simp only [placeKinds]
    split
    · unfold generate
      refine Weak.bind ((check_weak _).bind fun _ _ =>
        (placeMols_post ok hd h hS hf.head).weak) ?_
      rintro y ⟨h1, h2⟩
      refine (check_weak (y.2 = true)).bind fun _ hy => ?_
      rcases h2 with ⟨-, h3, h4⟩ | ⟨h2, -⟩
      · refine (ih h3 hsub hf.tail).mono ?_
        rintro s' ⟨k1, k2, k3⟩
        refine ⟨fun c hc => ?_, by rw [atomsOf_cons]; exact k2, fun k' hk => ?_⟩
        · have hc' : c ∉ k.mols.flatten ∧ c ∉ atomsOf kinds := by
            unfold atomsOf at hc ⊢
            rw [List.flatMap_cons, List.toFinset_append, Finset.mem_union, not_or] at hc
            exact ⟨fun e => hc.1 (List.mem_toFinset.2 e), hc.2⟩
          exact (k1 c hc'.2).trans (h1 c hc'.1)
        · rcases List.mem_cons.1 hk with rfl | hk
          · intro mol hmol
            refine (h4 mol hmol).congr fun c hc => k1 c fun hh => ?_
            have hcf : c ∈ k'.mols.flatten := List.mem_flatten.2 ⟨mol, hmol, hc⟩
            exact (hf.tail.mem c (List.mem_toFinset.1 hh)).2 (by
              simp only [Finset.mem_union, List.mem_toFinset]; exact .inr hcf)
          · exact k3 k' hk
      · rw [h2] at hy; exact absurd hy (by simp)
    · rename_i hk0
      have hk0' : k.mols = [] := by
        cases hm : k.mols with
        | nil => rfl
        | cons a l => rw [hm] at hk0; simp at hk0
      have htail := hf.tail
      rw [hk0'] at htail
      have e : S ∪ atomsOf (k :: kinds) = S ∪ atomsOf kinds := by
        rw [atomsOf_cons, hk0']; simp
      have e' : atomsOf (k :: kinds) = atomsOf kinds := by simp [atomsOf, hk0']
      rw [e, e']
      refine (ih h hS (by simpa using htail)).mono ?_
      rintro s' ⟨k1, k2, k3⟩
      refine ⟨k1, k2, fun k' hk => ?_⟩
      rcases List.mem_cons.1 hk with rfl | hk
      · rw [hk0']; simp
      · exact k3 k' hk

theorem placeKinds_ends (ok : g.OK bravais A) (hd : 0 < maxDiameter g.diams)
    (hfree : FreeSites g A) {kinds : List Kind} : ∀ {S : Finset ℕ} {s : St}, Held g S s → S ⊆ A →
      Supply A S kinds → placeKinds g kinds s ≠ .hang := by
  induction kinds with
  | nil => intro S s h hS hf; simp [placeKinds]
  | cons k kinds ih =>
    intro S s h hS hf
    have hsub : S ∪ k.mols.flatten.toFinset ⊆ A := Finset.union_subset hS fun b hb =>
      (hf.head.mem b (List.mem_toFinset.1 hb)).1
    simp only [placeKinds]
    split
    · unfold generate check
      split
      · rw [ok_bind]
        have h1 := placeMols_post ok hd h hS hf.head
        have h2 := placeMols_ends ok hd hfree h hS hf.head
        cases hw : placeMols g k.linear k.mols s with
        | hang => exact absurd hw h2
        | throw => simp
        | ub => simp
        | ok y =>
          rw [hw] at h1
          rw [ok_bind]
          split
          · rename_i hy
            rw [ok_bind]
            rcases h1.2 with ⟨-, h3, -⟩ | ⟨h3, -⟩
            · exact ih h3 hsub hf.tail
            · exact absurd (hy.symm.trans h3) (by simp)
          · simp
      · simp
    · rename_i hk0
      have hk0' : k.mols = [] := by
        cases hm : k.mols with
        | nil => rfl
        | cons a l => rw [hm] at hk0; simp at hk0
      have htail := hf.tail
      rw [hk0'] at htail
      exact ih h hS (by simpa using htail)

/-- The cell list is set up for the largest diameter; this fails if no diameter
is positive. -/
theorem setupCells_ok (s : St) :
    (setupCells g s = .throw ∧ maxDiameter g.diams ≤ 0) ∨
    (∃ c, setupCells g s = .ok { s with cells := c } ∧ 0 < maxDiameter g.diams ∧
      Held g ∅ { s with cells := c }) := by
  unfold setupCells
  cases hs : setup g.lengths (maxDiameter g.diams) with
  | none =>
    left
    refine ⟨rfl, ?_⟩
    by_contra hd
    obtain ⟨c, hc⟩ := (setup_isSome g.lengths (maxDiameter g.diams)).2 (not_le.1 hd)
    rw [hs] at hc
    simp at hc
  | some c =>
    right
    have hd : 0 < maxDiameter g.diams := (setup_isSome g.lengths _).1 ⟨c, hs⟩
    refine ⟨c, rfl, hd, ⟨rel_setup hs _, ?_, by intro a ha; simp at ha⟩⟩
    have hs' := hs
    unfold setup at hs'
    split at hs'
    · cases hs'
    simp only at hs'
    split at hs'
    · cases hs'
    simp only [Option.some.injEq] at hs'
    rw [← hs']

/-! ### C71 -/

/-- **C71 (configurations).**  `generateMolecules` has no undefined behaviour.
If it returns, all atoms generated are in the primary cell, any two of them are
at a distance of at least the mean of their diameters, each atom of a chain is
one of the bond vectors drawn away from its predecessor, and no other atom has
moved.  The cell list then holds exactly the atoms generated. -/
theorem C71_generated (ok : g.OK bravais A) {kinds : List Kind} (hk : Supply A ∅ kinds) (s : St) :
    generateMolecules g kinds s ≠ .ub ∧ ∀ s', generateMolecules g kinds s = .ok s' →
      Placed g bravais (atomsOf kinds) (kinds.flatMap fun k => k.mols) s' ∧
      ∀ c, c ∉ atomsOf kinds → s'.pos c = s.pos c := by
  rw [← weak_iff (P := fun s' => Placed g bravais (atomsOf kinds) (kinds.flatMap fun k => k.mols) s'
    ∧ ∀ c, c ∉ atomsOf kinds → s'.pos c = s.pos c)]
  unfold generateMolecules
  rcases setupCells_ok (g := g) s with ⟨h1, -⟩ | ⟨c, h1, h2, h3⟩
  · rw [h1]; trivial
  · rw [h1, ok_bind]
    refine (placeKinds_post ok h2 h3 (Finset.empty_subset A) hk).mono ?_
    rintro s' ⟨k1, k2, k3⟩
    rw [Finset.empty_union] at k2
    refine ⟨k2.placed fun mol hm => ?_, k1⟩
    obtain ⟨k, hk1, hk2⟩ := List.mem_flatMap.1 hm
    exact k3 k hk1 mol hk2

/-- **C71 (one species).**  `generate` throws an exception if and only if more
molecules are asked for than the species allows.  If it returns true, all
molecules are placed among the atoms placed before; if it returns false, some
number of molecules is placed, and neither the molecule that failed nor any
later one is in the cell list.  Atoms placed before do not move. -/
theorem C71_generate (ok : g.OK bravais A) (hd : 0 < maxDiameter g.diams) {s : St}
    (h : Held g S s) (hS : S ⊆ A) {k : Kind} (hf : FreshAll A S k.linear k.mols) :
    generate g k s ≠ .ub ∧ (generate g k s = .throw ↔ k.capacity < k.mols.length) ∧
    ∀ s' b, generate g k s = .ok (s', b) →
      (∀ c, c ∉ k.mols.flatten → s'.pos c = s.pos c) ∧
      (b = true → Placed g bravais (S ∪ k.mols.flatten.toFinset) k.mols s') ∧
      (b = false → ∃ n < k.mols.length,
        Placed g bravais (S ∪ (k.mols.take n).flatten.toFinset) (k.mols.take n) s') := by
  have h0 := placeMols_post ok hd h hS hf
  unfold generate check
  split
  · rename_i hc
    rw [ok_bind]
    cases hw : placeMols g k.linear k.mols s with
    | throw => rw [hw] at h0; exact h0.elim
    | ub => rw [hw] at h0; exact h0.elim
    | hang => simp [not_lt.2 hc]
    | ok y =>
      rw [hw] at h0
      refine ⟨by simp, by simp [not_lt.2 hc], fun s' b e => ?_⟩
      simp only [Run.ok.injEq] at e
      subst e
      obtain ⟨h1, ⟨h2, h3, h4⟩ | ⟨h2, n, hn, h3, h4⟩⟩ := h0
      · exact ⟨h1, fun _ => h3.placed h4, fun e => absurd (e.symm.trans h2) (by simp)⟩
      · exact ⟨h1, fun e => absurd (e.symm.trans h2) (by simp), fun _ => ⟨n, hn, h3.placed h4⟩⟩
  · rename_i hc
    rw [throw_bind]
    exact ⟨by simp, by simp [not_le.1 hc], fun s' b e => by simp at e⟩

/-- **C71 (end).**  Generation ends if enough of the random positions are
free. -/
theorem C71_ends (ok : g.OK bravais A) (hfree : FreeSites g A) {kinds : List Kind}
    (hk : Supply A ∅ kinds) (s : St) : generateMolecules g kinds s ≠ .hang := by
  unfold generateMolecules
  rcases setupCells_ok (g := g) s with ⟨h1, -⟩ | ⟨c, h1, h2, h3⟩
  · rw [h1]; simp
  · rw [h1, ok_bind]
    exact placeKinds_ends ok h2 hfree h3 (Finset.empty_subset A) hk

/-- **C71 (no end).**  An attempt to place a molecule runs forever if and only if
every random position to come overlaps an atom placed before. -/
theorem C71_hang_iff (ok : g.OK bravais A) (hd : 0 < maxDiameter g.diams) {s : St}
    (h : Held g S s) (hS : S ⊆ A) {linear : Bool} {mol : List ℕ} (hm : Fresh A S mol)
    (hp : linear = false → mol.length = 1) :
    place g linear mol s = .hang ↔
      ∀ j, s.nSite ≤ j → Overlaps g S s.pos (mol.getD 0 0) (g.shift (g.site j)) :=
  (place_post ok hd h hS hm hp).2

/-- **C71 (setup).**  Without a positive diameter an exception is thrown. -/
theorem C71_no_diameter {kinds : List Kind} (hd : ∀ d ∈ g.diams, d ≤ 0) (s : St) :
    generateMolecules g kinds s = .throw := by
  have h0 : maxDiameter g.diams ≤ 0 := by
    unfold maxDiameter
    have : ∀ l : List ℝ, (∀ d ∈ l, d ≤ 0) →
        l.foldl (fun m d => if d > m then d else m) 0 = 0 := by
      intro l hl
      induction l with
      | nil => rfl
      | cons x l ih =>
        rw [List.foldl_cons, if_neg (not_lt.2 (hl x (by simp)))]
        exact ih fun d hd => hl d (by simp [hd])
    exact (this _ hd).le
  unfold generateMolecules
  rcases setupCells_ok (g := g) s with ⟨h1, -⟩ | ⟨c, h1, h2, h3⟩
  · rw [h1]; rfl
  · exact absurd h2 (not_lt.2 h0)

end Verif.Generate
