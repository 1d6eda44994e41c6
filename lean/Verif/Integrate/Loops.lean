/-
What the loops over atoms do: every field of every atom gets its new value once.
-/
import Verif.Integrate.Model

set_option autoImplicit false

namespace Verif.Integrate

open Verif.Boundary

variable {ι : Type} [DecidableEq ι] {P : Type}

/-- A function applied to the fields of the atoms of a list. -/
def Sys.mapOn (l : List ι) (h : ι → Vec × Vec × Vec → Vec × Vec × Vec) (s : Sys ι P) : Sys ι P where
  pos i := if i ∈ l then (h i (s.pos i, s.vel i, s.force i)).1 else s.pos i
  vel i := if i ∈ l then (h i (s.pos i, s.vel i, s.force i)).2.1 else s.vel i
  force i := if i ∈ l then (h i (s.pos i, s.vel i, s.force i)).2.2 else s.force i
  list := s.list

/-- The state with the fields of one atom replaced. -/
def Sys.set (s : Sys ι P) (i : ι) (t : Vec × Vec × Vec) : Sys ι P where
  pos := Function.update s.pos i t.1
  vel := Function.update s.vel i t.2.1
  force := Function.update s.force i t.2.2
  list := s.list

theorem foldl_set (h : ι → Vec × Vec × Vec → Vec × Vec × Vec) :
    ∀ (l : List ι) (_ : l.Nodup) (s : Sys ι P),
      l.foldl (fun s i => s.set i (h i (s.pos i, s.vel i, s.force i))) s = s.mapOn l h
  | [], _, s => by simp [Sys.mapOn]
  | a :: l, hl, s => by
    rw [List.foldl_cons, foldl_set h l (List.nodup_cons.1 hl).2]
    have ha := (List.nodup_cons.1 hl).1
    have key : ∀ i, i ≠ a → (i ∈ l ↔ i ∈ a :: l) := fun i hi => by simp [hi]
    unfold Sys.mapOn Sys.set
    congr 1
    all_goals
      funext i
      by_cases hi : i = a
      · subst hi; simp [ha]
      · simp [hi]

/-- Only some fields of the state are assigned in the loops of the program. -/
theorem each_eq {w : World ι P} (hn : w.atoms.Nodup) {f : Sys ι P → ι → Sys ι P}
    {h : ι → Vec × Vec × Vec → Vec × Vec × Vec} {Q : (ι → Vec) → P → Prop}
    (hf : ∀ s i, Q s.pos s.list → f s i = s.set i (h i (s.pos i, s.vel i, s.force i)))
    (hQ : ∀ s i, Q s.pos s.list → Q (f s i).pos (f s i).list) {s : Sys ι P} (hs : Q s.pos s.list) :
    w.each f s = s.mapOn w.atoms h := by
  rw [← foldl_set h _ hn]
  unfold World.each
  generalize w.atoms = l
  induction l generalizing s with
  | nil => rfl
  | cons a l ih =>
    rw [List.foldl_cons, List.foldl_cons, ih (hQ _ _ hs), hf _ _ hs]

theorem each_eq' {w : World ι P} (hn : w.atoms.Nodup) {f : Sys ι P → ι → Sys ι P}
    {h : ι → Vec × Vec × Vec → Vec × Vec × Vec}
    (hf : ∀ s i, f s i = s.set i (h i (s.pos i, s.vel i, s.force i))) (s : Sys ι P) :
    w.each f s = s.mapOn w.atoms h :=
  each_eq (Q := fun _ _ => True) hn (fun s i _ => hf s i) (fun _ _ _ => trivial) trivial

/-- All atoms of the system are visited once. -/
structure World.Complete (w : World ι P) : Prop where
  nodup : w.atoms.Nodup
  all : ∀ i, i ∈ w.atoms

variable {w : World ι P}

theorem shiftAtoms_eq (hw : w.Complete) (s : Sys ι P) :
    shiftAtoms w s = { s with pos := fun i => w.shift (s.pos i) } := by
  unfold shiftAtoms
  rw [each_eq' (h := fun _ t => (w.shift t.1, t.2)) hw.nodup (fun s i => by simp [Sys.set])]
  simp [Sys.mapOn, hw.all]

theorem buildPairList_eq (hw : w.Complete) (s : Sys ι P) :
    buildPairList w s = { s with pos := fun i => w.shift (s.pos i)
                                 list := w.build s.list fun i => w.shift (s.pos i) } := by
  unfold buildPairList
  rw [shiftAtoms_eq hw]

theorem setZeroForces_eq (hw : w.Complete) (s : Sys ι P) :
    setZeroForces w s = { s with force := fun _ => 0 } := by
  unfold setZeroForces
  rw [each_eq' (h := fun _ t => (t.1, t.2.1, 0)) hw.nodup (fun s i => by simp [Sys.set])]
  simp [Sys.mapOn, hw.all]

theorem addForces_eq (hw : w.Complete) (s : Sys ι P) :
    addForces w s = { s with force := fun i => s.force i + w.forces s.list s.pos i } := by
  unfold addForces
  refine (each_eq (f := fun s i =>
    { s with force := Function.update s.force i (s.force i + w.forces s.list s.pos i) }) (h := fun i t => (t.1, t.2.1, t.2.2 + w.forces s.list s.pos i))
    (Q := fun p l => p = s.pos ∧ l = s.list) hw.nodup
    (fun u i hu => by
      obtain ⟨h1, h2⟩ := hu
      simp [Sys.set, h1, h2])
    (fun u i hu => hu) ⟨rfl, rfl⟩).trans ?_
  simp [Sys.mapOn, hw.all]

theorem Nve.step1_eq (hw : w.Complete) (g : Nve) (s : Sys ι P) :
    g.step1 w s = { s with
      vel := fun i => s.vel i + g.pref (w.typ i) • s.force i
      pos := fun i => s.pos i + g.dt • (s.vel i + g.pref (w.typ i) • s.force i) } := by
  unfold Nve.step1
  rw [each_eq' (h := fun i t => (t.1 + g.dt • (t.2.1 + g.pref (w.typ i) • t.2.2),
    t.2.1 + g.pref (w.typ i) • t.2.2, t.2.2)) hw.nodup (fun s i => by simp [Sys.set])]
  simp [Sys.mapOn, hw.all]

theorem Nve.step2_eq (hw : w.Complete) (g : Nve) (s : Sys ι P) :
    g.step2 w s = { s with vel := fun i => s.vel i + g.pref (w.typ i) • s.force i } := by
  unfold Nve.step2
  rw [each_eq' (h := fun i t => (t.1, t.2.1 + g.pref (w.typ i) • t.2.2, t.2.2)) hw.nodup
    (fun s i => by simp [Sys.set])]
  simp [Sys.mapOn, hw.all]

theorem Nh.step1_eq (hw : w.Complete) (g : Nh) (c : ℝ) (s : Sys ι P) :
    g.step1 w c s = { s with
      vel := fun i => c • s.vel i + g.pref (w.typ i) • s.force i
      pos := fun i => s.pos i + g.dt • (c • s.vel i + g.pref (w.typ i) • s.force i) } := by
  unfold Nh.step1
  rw [each_eq' (h := fun i t => (t.1 + g.dt • (c • t.2.1 + g.pref (w.typ i) • t.2.2),
    c • t.2.1 + g.pref (w.typ i) • t.2.2, t.2.2)) hw.nodup (fun s i => by simp [Sys.set])]
  simp [Sys.mapOn, hw.all]

theorem Nh.step2_eq (hw : w.Complete) (g : Nh) (c : ℝ) (s : Sys ι P) :
    g.step2 w c s = { s with
      vel := fun i => c • (s.vel i + g.pref (w.typ i) • s.force i) } := by
  unfold Nh.step2
  rw [each_eq' (h := fun i t => (t.1, c • (t.2.1 + g.pref (w.typ i) • t.2.2), t.2.2)) hw.nodup
    (fun s i => by simp [Sys.set])]
  simp [Sys.mapOn, hw.all]

/-- The array of prefactors after `setup`. -/
theorem pref_eq (n : ℕ) (c : ℕ → ℝ) (q : ℕ → ℝ) :
    (List.range n).foldl (fun q t => Function.update q t (c t)) q =
      fun t => if t < n then c t else q t := by
  induction n with
  | zero => simp
  | succ n ih =>
    rw [List.range_succ, List.foldl_append, ih]
    funext t
    rcases lt_trichotomy t n with h | h | h
    · simp [h.ne, h, Nat.lt_succ_of_lt h]
    · simp [h]
    · simp [h.ne', not_lt.2 h.le, show ¬ t < n + 1 by omega]

end Verif.Integrate
