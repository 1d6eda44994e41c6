/-
Placing one atom, and one molecule.
-/
import Verif.Generate.Model
import Verif.McMoves.Energy

set_option autoImplicit false

namespace Verif.Generate

open Verif.Boundary Verif.McCellList Verif.McCell
open Run

/-! ### Specification -/

/-- No two of the atoms overlap: their distance is at least the mean of their
diameters. -/
def Apart (g : Setting) (S : Finset ℕ) (q : ℕ → Vec) : Prop :=
  ∀ a ∈ S, ∀ b ∈ S, a ≠ b → ((g.diam a + g.diam b) / 2) ^ 2 ≤ g.dsq (q a) (q b)

/-- Every atom of the chain is, up to periodic images, displaced from its
predecessor by one of the bond vectors drawn. -/
def Bonded (g : Setting) (bravais : Fin 3 → Vec) (q : ℕ → Vec) (mol : List ℕ) : Prop :=
  ∀ (i a b : ℕ), mol[i]? = some a → mol[i + 1]? = some b →
    ∃ (j : ℕ) (k : IVec), q b = q a + g.bond 1 0 j + latComb bravais k

/-- What is known about boundary (C23-C26), random numbers and diameters, for
molecules with atoms in `A`. -/
structure Setting.OK (g : Setting) (bravais : Fin 3 → Vec) (A : Finset ℕ) : Prop where
  geo : Geo g.gen g.lengths bravais
  dist : Dist bravais g.dsq
  dsymm : ∀ r r', g.dsq r r' = g.dsq r' r
  wrap : ∀ r, NearCell (fun _ => 1) (g.gen r) →
    InUnit (g.gen (g.shift r)) ∧ ∃ k : IVec, r = g.shift r + latComb bravais k
  site : ∀ j, InUnit (g.gen (g.site j))
  bond : ∀ j i, |g.gen (g.bond 1 0 j) i| ≤ 1
  diams : ∀ d ∈ g.diams, 0 ≤ d
  /-- atoms that do not overlap cannot fill a cell of the cell list -/
  room : ∀ S ⊆ A, ∀ q, (∀ a ∈ S, InUnit (g.gen (q a))) → Apart g S q →
    Roomy g.gen g.cellCap (fun i => axisCells (g.lengths i) (maxDiameter g.diams)) ⟨S, q⟩

/-- The atoms `S` have been placed: they are in the primary cell, do not
overlap, and the cell list holds them. -/
structure Held (g : Setting) (S : Finset ℕ) (s : St) : Prop where
  rel : Rel g.cellCap s.cells S (fun a => g.gen (s.pos a))
  n : s.cells.n = fun i => axisCells (g.lengths i) (maxDiameter g.diams)
  apart : Apart g S s.pos

variable {g : Setting} {bravais : Fin 3 → Vec} {A S : Finset ℕ}

theorem Held.unit {s : St} (h : Held g S s) {a : ℕ} (ha : a ∈ S) : InUnit (g.gen (s.pos a)) :=
  h.rel.unit a ha

theorem Apart.congr {q q' : ℕ → Vec} (h : Apart g S q) (he : ∀ a ∈ S, q' a = q a) :
    Apart g S q' := fun a ha b hb hab => by rw [he a ha, he b hb]; exact h a ha b hb hab

theorem Apart.subset {T : Finset ℕ} {q : ℕ → Vec} (h : Apart g S q) (hT : T ⊆ S) : Apart g T q :=
  fun a ha b hb hab => h a (hT ha) b (hT hb) hab

/-- Only positions of the atoms placed and the cell list matter. -/
theorem Held.congr {s s' : St} (h : Held g S s) (hp : ∀ a ∈ S, s'.pos a = s.pos a)
    (hc : s'.cells = s.cells) : Held g S s' := by
  obtain ⟨⟨h1, h2, h3, h4, h5, h6⟩, hn, ha⟩ := h
  refine ⟨⟨?_, ?_, ?_, fun a ha => ?_, fun a ha => ?_, ?_⟩, ?_, ha.congr hp⟩
  · rw [hc]; exact h1
  · rw [hc]; exact h2
  · rw [hc]; exact h3
  · simpa [hp a ha] using h4 a ha
  · rw [hc]; simpa [hp a ha] using h5 a ha
  · rw [hc]; exact h6
  · rw [hc]; exact hn

/-! ### Diameters -/

theorem foldl_max_ge (l : List ℝ) (m : ℝ) :
    m ≤ l.foldl (fun m d => if d > m then d else m) m ∧
      ∀ d ∈ l, d ≤ l.foldl (fun m d => if d > m then d else m) m := by
  induction l generalizing m with
  | nil => simp
  | cons x l ih =>
    simp only [List.foldl_cons]
    obtain ⟨h1, h2⟩ := ih (if x > m then x else m)
    have h3 : m ≤ (if x > m then x else m) ∧ x ≤ (if x > m then x else m) := by
      split
      · rename_i h; exact ⟨h.le, le_rfl⟩
      · rename_i h; exact ⟨le_rfl, not_lt.1 h⟩
    refine ⟨h3.1.trans h1, fun d hd => ?_⟩
    rcases List.mem_cons.1 hd with rfl | hd
    · exact h3.2.trans h1
    · exact h2 d hd

theorem diam_le (a : ℕ) : g.diam a ≤ maxDiameter g.diams := by
  unfold Setting.diam maxDiameter
  rw [List.getD_eq_getElem?_getD]
  cases h : g.diams[g.typ a]? with
  | none => exact (foldl_max_ge _ 0).1
  | some d => exact (foldl_max_ge _ 0).2 d (List.mem_of_getElem? h)

theorem diam_nonneg (hd : ∀ d ∈ g.diams, 0 ≤ d) (a : ℕ) : 0 ≤ g.diam a := by
  unfold Setting.diam
  rw [List.getD_eq_getElem?_getD]
  cases h : g.diams[g.typ a]? with
  | none => exact le_rfl
  | some d => exact hd d (List.mem_of_getElem? h)

/-! ### Neighbours -/

/-- A system of the atoms `S` without interactions. -/
noncomputable def dummy (g : Setting) (S : Finset ℕ) : McMoves.World where
  atoms := S
  molAtoms := fun m => if m = 0 then S.toList else []
  molOf := fun _ => 0
  masked := fun _ _ => true
  pair := fun _ _ _ => 0
  bonded := []
  links := []
  ext := fun _ _ => 0
  tether := fun _ _ => 0
  beta := 1
  gen := g.gen
  shift := g.shift
  dsq := g.dsq
  cellCap := g.cellCap
  stateType := fun _ => 0
  weight := fun _ => 0

theorem dummy_ok (ok : g.OK bravais A) (h : 0 < maxDiameter g.diams) :
    (dummy g S).OK g.lengths bravais (maxDiameter g.diams) where
  geo := ok.geo
  dist := ok.dist
  dsymm := ok.dsymm
  cut := h
  range := fun _ _ _ _ => rfl
  psymm := fun _ _ _ => rfl
  msymm := fun _ _ => rfl
  molMem := fun m a ha => by
    simp only [dummy] at ha ⊢
    split at ha
    · rename_i h0; exact ⟨by simpa using ha, h0.symm⟩
    · simp at ha
  molAll := fun a ha => by simpa [dummy] using ha
  molNodup := fun m => by
    simp only [dummy]
    split
    · exact S.nodup_toList
    · exact List.nodup_nil
  bonded := fun x hx => by simp [dummy] at hx
  links := fun x hx => by simp [dummy] at hx

theorem near_ok (ok : g.OK bravais A) (hd : 0 < maxDiameter g.diams) {s : St} (h : Held g S s)
    {r : Vec} (hr : InUnit (g.gen r)) :
    ∃ l, (∀ p n m, near g ⟨p, s.cells, n, m⟩ r = .ok l) ∧ (∀ a ∈ l, a ∈ S) ∧
      ∀ a ∈ S, g.dsq (s.pos a) r < maxDiameter g.diams ^ 2 → a ∈ l := by
  obtain ⟨l, h1, -, h3, h4⟩ := McMoves.near_ok (w := dummy g S)
    (s := ⟨s.pos, g.typ, s.cells, 0, 0, fun _ => none, fun _ => 0⟩) (dummy_ok ok hd)
    (q := s.pos) ⟨h.rel, h.n⟩ (r := r) hr
  refine ⟨l, fun p n m => ?_, h3, fun a ha hlt => h4 a ha ?_⟩
  · unfold McMoves.near at h1
    unfold near
    simp only at h1 ⊢
    have h1' : (match s.cells.getNeighbors g.gen r with
      | none => Cpp.Out.ub
      | some l => Cpp.Out.ok l) = Cpp.Out.ok l := h1
    cases hx : s.cells.getNeighbors g.gen r with
    | none => rw [hx] at h1'; simp at h1'
    | some l' =>
      rw [hx] at h1'
      simp only [Cpp.Out.ok.injEq] at h1'
      simp only [h1']
  · obtain ⟨k, hk⟩ := ok.dist.image r (s.pos a)
    refine ⟨k, ?_⟩
    rw [← hk, ok.dsymm]
    exact hlt

/-! ### One atom -/

/-- The atom overlaps an atom placed before. -/
def Overlaps (g : Setting) (S : Finset ℕ) (q : ℕ → Vec) (a : ℕ) (r : Vec) : Prop :=
  ∃ b ∈ S, g.dsq (q b) r < ((g.diam a + g.diam b) / 2) ^ 2

/-- `attemptPlaceAtom` shifts the atom into the cell; it succeeds if and only if
the atom then overlaps no atom placed before, in which case it is placed. -/
theorem attempt_ok (ok : g.OK bravais A) (hd : 0 < maxDiameter g.diams) {s : St} (h : Held g S s)
    (hS : S ⊆ A) {a : ℕ} (haA : a ∈ A) (ha : a ∉ S)
    (hr : NearCell (fun _ => 1) (g.gen (s.pos a))) :
    ∃ c, (Overlaps g S s.pos a (g.shift (s.pos a)) ∧
        attemptPlaceAtom g a s = .ok (s.setPos a (g.shift (s.pos a)), false) ∧ c = s.cells) ∨
      (¬ Overlaps g S s.pos a (g.shift (s.pos a)) ∧
        attemptPlaceAtom g a s = .ok ({ s.setPos a (g.shift (s.pos a)) with cells := c }, true) ∧
        Held g (insert a S) { s.setPos a (g.shift (s.pos a)) with cells := c }) := by
  classical
  set x := g.shift (s.pos a) with hx
  have hxu : InUnit (g.gen x) := (ok.wrap _ hr).1
  obtain ⟨l, h1, h2, h3⟩ := near_ok ok hd h hxu
  have hne : ∀ b ∈ S, b ≠ a := fun b hb hba => ha (hba ▸ hb)
  have hclose : (∃ b ∈ l, TooClose g (s.setPos a x) a b) ↔ Overlaps g S s.pos a x := by
    unfold TooClose Overlaps
    constructor
    · rintro ⟨b, hb, hlt⟩
      refine ⟨b, h2 b hb, ?_⟩
      simp only [Function.update_self, Function.update_of_ne (hne b (h2 b hb))] at hlt
      rwa [show (g.diam a + g.diam b) / 2 = 1 / 2 * (g.diam a + g.diam b) by ring]
    · rintro ⟨b, hb, hlt⟩
      refine ⟨b, h3 b hb (lt_of_lt_of_le hlt ?_), ?_⟩
      · have e1 := diam_nonneg ok.diams a
        have e2 := diam_nonneg ok.diams b
        have e3 := diam_le (g := g) a
        have e4 := diam_le (g := g) b
        exact pow_le_pow_left₀ (by linarith) (by linarith) 2
      · simp only [Function.update_self, Function.update_of_ne (hne b hb)]
        rwa [show 1 / 2 * (g.diam a + g.diam b) = (g.diam a + g.diam b) / 2 by ring]
  have hrun : attemptPlaceAtom g a s =
      if ∃ b ∈ l, TooClose g (s.setPos a x) a b then .ok (s.setPos a x, false)
      else (ofRes (s.cells.addAtom g.gen g.cellCap a x) >>= fun c =>
        .ok ({ s.setPos a x with cells := c }, true)) := by
    unfold attemptPlaceAtom
    simp only [Function.update_self, ← hx]
    rw [h1, ok_bind]
  by_cases ho : Overlaps g S s.pos a x
  · exact ⟨s.cells, .inl ⟨ho, by rw [hrun, if_pos (hclose.2 ho)], rfl⟩⟩
  · have hap : Apart g (insert a S) (Function.update s.pos a x) := by
      have hno : ∀ b ∈ S, ((g.diam a + g.diam b) / 2) ^ 2 ≤ g.dsq (s.pos b) x := fun b hb => by
        by_contra hlt
        exact ho ⟨b, hb, not_le.1 hlt⟩
      intro b hb c hc hbc
      rcases Finset.mem_insert.1 hb with rfl | hb' <;> rcases Finset.mem_insert.1 hc with rfl | hc'
      · exact absurd rfl hbc
      · rw [Function.update_self, Function.update_of_ne (hne c hc'), ok.dsymm]
        exact hno c hc'
      · rw [Function.update_self, Function.update_of_ne (hne b hb'), add_comm (g.diam b)]
        exact hno b hb'
      · rw [Function.update_of_ne (hne b hb'), Function.update_of_ne (hne c hc')]
        exact h.apart b hb' c hc' hbc
    have hun : ∀ b ∈ insert a S, InUnit (g.gen (Function.update s.pos a x b)) := by
      intro b hb
      rcases Finset.mem_insert.1 hb with rfl | hb
      · rwa [Function.update_self]
      · rw [Function.update_of_ne (hne b hb)]; exact h.unit hb
    obtain ⟨c, e1, e2, e3⟩ := step_rel (A := ⟨S, s.pos⟩) (op := .add a x) h.rel ⟨ha, hxu⟩ (by
      rw [h.n]
      exact ok.room _ (Finset.insert_subset haA hS) _ hun hap)
    refine ⟨c, .inr ⟨ho, ?_, ⟨e3, by rw [← h.n]; exact e2, hap⟩⟩⟩
    rw [hrun, if_neg (fun hh => ho (hclose.1 hh))]
    have e1' : s.cells.addAtom g.gen g.cellCap a x = .ok c := e1
    rw [e1']
    rfl

end Verif.Generate
