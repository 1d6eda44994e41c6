/-
Molecular dynamics with restart files: MdSimulation::simulate with `saveInterval`, the
archive of the configuration, and a simulation that is continued from an archive.

  src/mcMd/mdSimulation/MdSimulation.cpp, MdSystem.cpp
  src/mcMd/simulation/System.cpp
-/
import Verif.Restart.IntegratorProps
import Verif.Integrate.Props

set_option autoImplicit false

namespace Verif.Restart

open Verif.Cpp Verif.Cpp.Out Verif.Boundary Verif.Integrate

variable {ι : Type} [DecidableEq ι] {P G : Type}

/-- A simulation program: the species, their molecules and the atoms of these; the step of
the integrator, its functions `save` and `loadParameters`. `rest` is what all other parts
of the simulation save between the integrator and the atoms (analyzers, commands, the
interval between restart files, the boundary), and `skip` is the loading of these parts. -/
structure Prog (ι P G : Type) where
  w : World ι P
  species : List (List (List ι))
  step : G × Sys ι P → G × Sys ι P
  save : G → List Tok
  load : G → List Tok → Out (G × List Tok)
  rest : List Tok
  skip : List Tok → Out (List Tok)

/-- One atom in System::saveConfig (System.cpp:789-790). -/
def putAtom (s : Sys ι P) (i : ι) : List Tok := putVec (s.pos i) ++ putVec (s.vel i)

/-- The species `k` in System::saveConfig (System.cpp:768-795), for a species that is not
mutable. -/
def putSpecies (s : Sys ι P) (ms : List (List ι)) (k : ℕ) : List Tok :=
  [Tok.int k, Tok.int ms.length] ++ ms.flatMap fun m => m.flatMap (putAtom s)

/-- All species (System.cpp:767-796). -/
def putAll (s : Sys ι P) : List (List (List ι)) → ℕ → List Tok
  | [], _ => []
  | ms :: sp, k => putSpecies s ms k ++ putAll s sp (k + 1)

/-- System::saveConfig without the boundary (System.cpp:756-797): every atom is shifted to
the primary cell, and written. The atoms of the running program are shifted. -/
def Prog.saveConfig (q : Prog ι P G) (s : Sys ι P) : Sys ι P × List Tok :=
  (shiftAtoms q.w s, putAll (shiftAtoms q.w s) q.species 0)

/-- The atoms of a molecule in System::loadConfig (System.cpp:738-748). -/
def Prog.loadAtoms (q : Prog ι P G) : List ι → Sys ι P → List Tok → Out (Sys ι P × List Tok)
  | [], s, r => ok (s, r)
  | i :: l, s, r => do
    let (x, r) ← getVec r
    let (v, r) ← getVec r
    q.loadAtoms l { s with pos := Function.update s.pos i (q.w.shift x)
                           vel := Function.update s.vel i v } r

/-- The loop over the molecules of a species (System.cpp:728-749); `ms` are the molecules
of the species that can be taken from the reservoir. -/
def Prog.loadMolecules (q : Prog ι P G) : ℕ → List (List ι) → Sys ι P → List Tok →
    Out (Sys ι P × List Tok)
  | 0, _, s, r => ok (s, r)
  | _ + 1, [], _, _ => throw
  | n + 1, m :: ms, s, r => do
    let (s, r) ← q.loadAtoms m s r
    q.loadMolecules n ms s r

/-- The loop over species (System.cpp:717-750). -/
def Prog.loadSpecies (q : Prog ι P G) : List (List (List ι)) → ℕ → Sys ι P → List Tok →
    Out (Sys ι P × List Tok)
  | [], _, s, r => ok (s, r)
  | ms :: sp, k, s, r => do
    let (j, r) ← getInt r
    check (j = k)
    let (n, r) ← getInt r
    let (s, r) ← q.loadMolecules n.toNat ms s r
    q.loadSpecies sp (k + 1) s r

/-- MdSystem::loadConfig (MdSystem.cpp:676-690): the atoms are loaded, the pair list is
built, and the forces are calculated. -/
def Prog.loadConfig (q : Prog ι P G) (s : Sys ι P) (r : List Tok) : Out (Sys ι P × List Tok) := do
  let (s, r) ← q.loadSpecies q.species 0 s r
  ok (calculateForces q.w (buildPairList q.w s), r)

/-- MdSimulation::save at step `i` (MdSimulation.cpp:337-349), from the integrator on. -/
def Prog.write (q : Prog ι P G) (i : ℕ) (x : G × Sys ι P) : (G × Sys ι P) × List Tok :=
  let (s, a) := q.saveConfig x.2
  ((x.1, s), q.save x.1 ++ (q.rest ++ (a ++ [Tok.int i])))

/-- MdSimulation::loadParameters (MdSimulation.cpp:312-332), from the integrator on, into
the program in state `x`. -/
def Prog.read (q : Prog ι P G) (x : G × Sys ι P) (r : List Tok) : Out ((G × Sys ι P) × ℤ) := do
  let (g, r) ← q.load x.1 r
  let r ← q.skip r
  let (s, r) ← q.loadConfig x.2 r
  let (i, _) ← getInt r
  ok ((g, s), i)

/-- The main loop of MdSimulation::simulate (MdSimulation.cpp:468-520) from step `i` to
step `i + n`. `shifts i`: analyzers are sampled at step `i`; `saves i`: a restart file is
written. The result contains the final state and the contents of all restart files. -/
def Prog.run (q : Prog ι P G) (shifts saves : ℕ → Bool) :
    ℕ → ℕ → G × Sys ι P → (G × Sys ι P) × List (List Tok)
  | i, 0, x =>
    let x := (x.1, shiftAtoms q.w x.2)
    if saves i then ((q.write i x).1, [(q.write i x).2]) else (x, [])
  | i, n + 1, x =>
    let x := if shifts i then (x.1, shiftAtoms q.w x.2) else x
    if saves i then
      let y := q.run shifts saves (i + 1) n (q.step (q.write i x).1)
      (y.1, (q.write i x).2 :: y.2)
    else q.run shifts saves (i + 1) n (q.step x)

/-- The command RESTART of a program that has loaded an archive (MdSimulation.cpp:385-393):
`simulate(endStep, true)`. -/
def Prog.resume (q : Prog ι P G) (shifts saves : ℕ → Bool) (endStep : ℕ) (x : G × Sys ι P)
    (a : List Tok) : Out ((G × Sys ι P) × List (List Tok)) := do
  let (x, i) ← q.read x a
  ok (q.run shifts saves i.toNat (endStep - i.toNat) x)

/-! ### What is loaded -/

/-- The atoms of the species. -/
def atomsOf (sp : List (List (List ι))) : List ι := sp.flatten.flatten

/-- Positions and velocities of `t` are put into `s` for the atoms of `l`, shifted. -/
def fillAtoms (w : World ι P) (t : Sys ι P) (l : List ι) (s : Sys ι P) : Sys ι P :=
  { s with pos := fun i => if i ∈ l then w.shift (t.pos i) else s.pos i
           vel := fun i => if i ∈ l then t.vel i else s.vel i }

theorem fillAtoms_append (w : World ι P) (t : Sys ι P) (l m : List ι) (s : Sys ι P) :
    fillAtoms w t m (fillAtoms w t l s) = fillAtoms w t (l ++ m) s := by
  unfold fillAtoms
  simp only [List.mem_append, Sys.mk.injEq, and_true]
  constructor
  · funext i
    by_cases h1 : i ∈ m <;> by_cases h2 : i ∈ l <;> simp [h1, h2]
  · funext i
    by_cases h1 : i ∈ m <;> by_cases h2 : i ∈ l <;> simp [h1, h2]

variable {q : Prog ι P G}

theorem loadAtoms_put (t : Sys ι P) (l : List ι) (s : Sys ι P) (r : List Tok) :
    q.loadAtoms l s (l.flatMap (putAtom t) ++ r) = ok (fillAtoms q.w t l s, r) := by
  induction l generalizing s with
  | nil => simp [Prog.loadAtoms, fillAtoms]
  | cons i l ih =>
    rw [Prog.loadAtoms, List.flatMap_cons, putAtom, List.append_assoc, List.append_assoc, getVec_put,
      ok_bind]
    dsimp only
    rw [getVec_put, ok_bind]
    dsimp only
    rw [ih]
    congr 2
    unfold fillAtoms
    simp only [List.mem_cons, Sys.mk.injEq, and_true]
    constructor
    · funext j
      by_cases h1 : j ∈ l <;> by_cases h2 : j = i <;> simp [h1, h2]
    · funext j
      by_cases h1 : j ∈ l <;> by_cases h2 : j = i <;> simp [h1, h2]

theorem loadMolecules_put (t : Sys ι P) (ms : List (List ι)) (s : Sys ι P) (r : List Tok) :
    q.loadMolecules ms.length ms s (ms.flatMap (fun m => m.flatMap (putAtom t)) ++ r) =
      ok (fillAtoms q.w t ms.flatten s, r) := by
  induction ms generalizing s with
  | nil => simp [Prog.loadMolecules, fillAtoms]
  | cons m ms ih =>
    rw [List.length_cons, Prog.loadMolecules, List.flatMap_cons, List.append_assoc, loadAtoms_put,
      ok_bind]
    dsimp only
    rw [ih, fillAtoms_append, List.flatten_cons]

theorem loadSpecies_put (t : Sys ι P) (sp : List (List (List ι))) (k : ℕ) (s : Sys ι P)
    (r : List Tok) :
    q.loadSpecies sp k s (putAll t sp k ++ r) = ok (fillAtoms q.w t (atomsOf sp) s, r) := by
  induction sp generalizing k s with
  | nil => simp [Prog.loadSpecies, putAll, fillAtoms, atomsOf]
  | cons ms sp ih =>
    rw [Prog.loadSpecies, putAll, putSpecies]
    simp only [List.append_assoc, List.cons_append, List.nil_append, getInt_put, ok_bind]
    rw [check_true trivial, ok_bind, Int.toNat_natCast, loadMolecules_put, ok_bind]
    dsimp only
    rw [ih, fillAtoms_append]
    simp [atomsOf]

/-! ### Continuation -/

/-- `Inv i x`: the program is in a state `x` that it can have at the beginning of step `i`.
The conditions under which a program started from a restart file comes to the same
states. -/
structure Keeps (q : Prog ι P G) (n : ℕ) (Inv : ℕ → G × Sys ι P → Prop) : Prop where
  complete : q.w.Complete
  species : atomsOf q.species = q.w.atoms
  skip : ∀ r, q.skip (q.rest ++ r) = ok r
  shift : ∀ i x, Inv i x → Inv i (x.1, shiftAtoms q.w x.2)
  step : ∀ i x, i < n → Inv i x → Inv (i + 1) (q.step x)
  load : ∀ i x g0 l f r, Inv i x → ∃ g, q.load g0 (q.save x.1 ++ r) = ok (g, r) ∧
    Inv i (g, calculateForces q.w (buildPairList q.w
      { pos := fun a => q.w.shift (x.2.pos a), vel := x.2.vel, force := f, list := l }))

variable {n : ℕ} {Inv : ℕ → G × Sys ι P → Prop}

/-- A file written at step `i` is read as a state of step `i`. -/
theorem Keeps.read (h : Keeps q n Inv) {i : ℕ} {x : G × Sys ι P} (hx : Inv i x) (x0 : G × Sys ι P) :
    ∃ x', q.read x0 (q.write i x).2 = ok (x', (i : ℤ)) ∧ Inv i x' := by
  have hs : shiftAtoms q.w x.2 = { x.2 with pos := fun a => q.w.shift (x.2.pos a) } :=
    shiftAtoms_eq h.complete x.2
  obtain ⟨g, hg, hi⟩ := h.load i _ x0.1 x0.2.list x0.2.force
    (q.rest ++ (putAll (shiftAtoms q.w x.2) q.species 0 ++ [Tok.int i])) (h.shift i x hx)
  refine ⟨_, ?_, hi⟩
  unfold Prog.read Prog.write Prog.saveConfig Prog.loadConfig
  dsimp only at hg ⊢
  rw [hg, ok_bind]
  dsimp only
  rw [h.skip, ok_bind, loadSpecies_put, ok_bind]
  dsimp only
  rw [ok_bind]
  dsimp only
  rw [getInt_put, ok_bind]
  dsimp only
  congr 5
  unfold fillAtoms
  rw [h.species]
  simp [h.complete.all]

/-- The state after the last step, and all restart files. -/
theorem Keeps.run (h : Keeps q n Inv) (shifts saves : ℕ → Bool) (k : ℕ) :
    ∀ (i : ℕ) (x : G × Sys ι P), i + k = n → Inv i x →
      (∃ y, Inv n y ∧ (q.run shifts saves i k x).1 = (y.1, shiftAtoms q.w y.2)) ∧
      ∀ a ∈ (q.run shifts saves i k x).2, ∃ j x', i ≤ j ∧ j ≤ n ∧ Inv j x' ∧ a = (q.write j x').2 := by
  induction k with
  | zero =>
    intro i x hi hx
    obtain rfl : i = n := by omega
    have h1 := h.shift i x hx
    rw [Prog.run]
    split
    · refine ⟨⟨_, h1, rfl⟩, fun a ha => ?_⟩
      simp only [List.mem_singleton] at ha
      exact ⟨i, _, le_rfl, le_rfl, h1, ha⟩
    · exact ⟨⟨x, hx, rfl⟩, fun a ha => by simp at ha⟩
  | succ k ih =>
    intro i x hi hx
    rw [Prog.run]
    dsimp only
    set x1 := if shifts i then (x.1, shiftAtoms q.w x.2) else x with hx1
    have h1 : Inv i x1 := by
      rw [hx1]; split
      · exact h.shift i x hx
      · exact hx
    split
    · have h2 : Inv i (q.write i x1).1 := h.shift i x1 h1
      obtain ⟨ha, hb⟩ := ih (i + 1) _ (by omega) (h.step i _ (by omega) h2)
      refine ⟨ha, fun a hm => ?_⟩
      rcases List.mem_cons.1 hm with rfl | hm
      · exact ⟨i, x1, le_rfl, by omega, h1, rfl⟩
      · obtain ⟨j, x', h3, h4⟩ := hb a hm
        exact ⟨j, x', by omega, h4⟩
    · obtain ⟨ha, hb⟩ := ih (i + 1) _ (by omega) (h.step i _ (by omega) h1)
      refine ⟨ha, fun a hm => ?_⟩
      obtain ⟨j, x', h3, h4⟩ := hb a hm
      exact ⟨j, x', by omega, h4⟩

/-- Every restart file can be continued to a state of the last step. -/
theorem Keeps.resume (h : Keeps q n Inv) (shifts saves shifts' saves' : ℕ → Bool) {x : G × Sys ι P}
    (hx : Inv 0 x) (x0 : G × Sys ι P) {a : List Tok} (ha : a ∈ (q.run shifts saves 0 n x).2) :
    ∃ z y, q.resume shifts' saves' n x0 a = ok z ∧ Inv n y ∧
      z.1 = (y.1, shiftAtoms q.w y.2) := by
  obtain ⟨j, x', _, hj, hi, rfl⟩ := (h.run shifts saves n 0 x (by omega) hx).2 a ha
  obtain ⟨x1, hr, hi1⟩ := h.read hi x0
  obtain ⟨⟨y, hy, hz⟩, _⟩ := h.run shifts' saves' (n - j) j x1 (by omega) hi1
  refine ⟨_, y, ?_, hy, hz⟩
  unfold Prog.resume
  rw [hr, ok_bind]
  rfl

end Verif.Restart
