/-
C39 for the swap of chain ends and the semigrand move.
-/
import Verif.McMoves.Atom

set_option autoImplicit false

namespace Verif.McMoves

open Verif.Boundary Verif.McCellList Verif.McCell
open Verif.Cpp
open Verif.Cpp.Out

variable {w : World} {lengths : Vec} {bravais : Fin 3 → Vec} {cutoff : ℝ}

/-! ### Reversal of a chain -/

/-- The atom at the mirrored place in a chain; atoms outside the chain are left
alone. -/
def flip (l : List ℕ) (a : ℕ) : ℕ := l.reverse.getD (l.idxOf a) a

theorem flip_not_mem {l : List ℕ} {a : ℕ} (ha : a ∉ l) : flip l a = a := by
  unfold flip
  rw [List.idxOf_eq_length_iff.2 ha]
  simp [List.getD]

theorem flip_get {l : List ℕ} (hl : l.Nodup) {i : ℕ} (hi : i < l.length) :
    flip l (l[i]) = l[l.length - 1 - i] := by
  unfold flip
  rw [hl.idxOf_getElem i hi]
  simp [List.getD, hi, List.getElem?_reverse]

theorem flip_zip {l : List ℕ} (hl : l.Nodup) {a b : ℕ} (h : (a, b) ∈ l.zip l.reverse) :
    flip l a = b := by
  obtain ⟨i, hi, he⟩ := List.getElem_of_mem h
  rw [List.getElem_zip] at he
  simp only [List.length_zip, List.length_reverse, Nat.min_self] at hi
  have e1 : l[i] = a := (Prod.mk.inj he).1
  have e2 : l.reverse[i]'(by simpa using hi) = b := (Prod.mk.inj he).2
  rw [← e1, flip_get hl hi, ← e2, List.getElem_reverse]

theorem flip_mem {l : List ℕ} (hl : l.Nodup) {a : ℕ} (ha : a ∈ l) : flip l a ∈ l := by
  obtain ⟨i, hi, rfl⟩ := List.getElem_of_mem ha
  rw [flip_get hl hi]
  exact List.getElem_mem _

theorem flip_flip {l : List ℕ} (hl : l.Nodup) (a : ℕ) : flip l (flip l a) = a := by
  by_cases ha : a ∈ l
  · obtain ⟨i, hi, rfl⟩ := List.getElem_of_mem ha
    rw [flip_get hl hi, flip_get hl (by omega)]
    congr 1
    omega
  · rw [flip_not_mem ha, flip_not_mem ha]

theorem flip_mem_iff {l : List ℕ} (hl : l.Nodup) (a : ℕ) : flip l a ∈ l ↔ a ∈ l := by
  refine ⟨fun h => ?_, flip_mem hl⟩
  have := flip_mem hl h
  rwa [flip_flip hl] at this

/-- Repeated assignment. -/
def assign {α : Type} (P : List (ℕ × α)) (f : ℕ → α) : ℕ → α :=
  P.foldl (fun f x => Function.update f x.1 x.2) f

theorem assign_eq {α : Type} (P : List (ℕ × α)) (f g : ℕ → α) (h1 : ∀ x ∈ P, g x.1 = x.2)
    (h2 : ∀ a, a ∉ P.map Prod.fst → g a = f a) : assign P f = g := by
  unfold assign
  induction P generalizing f with
  | nil => funext a; exact (h2 a (by simp)).symm
  | cons x P ih =>
    rw [List.foldl_cons]
    refine ih _ (fun y hy => h1 y (List.mem_cons_of_mem _ hy)) fun a ha => ?_
    by_cases hax : a = x.1
    · subst hax
      rw [Function.update_self]
      exact h1 x (List.mem_cons_self ..)
    · rw [Function.update_of_ne hax]
      exact h2 a (by simp only [List.map_cons, List.mem_cons]; tauto)

theorem map_fst_zip {α : Type} (l : List ℕ) (k : List α) (h : k.length = l.length) :
    (l.zip k).map Prod.fst = l := List.map_fst_zip (by omega)

theorem assign_flip {α : Type} (l : List ℕ) (hl : l.Nodup) (f : ℕ → α) :
    assign (l.zip (l.map f).reverse) f = f ∘ flip l := by
  refine assign_eq _ _ _ ?_ ?_
  · rintro ⟨a, x⟩ hx
    rw [← List.map_reverse, List.zip_map_right, List.mem_map] at hx
    obtain ⟨⟨a', b⟩, hab, he⟩ := hx
    simp only [Prod.map, id, Prod.mk.injEq] at he
    obtain ⟨rfl, rfl⟩ := he
    simp only [Function.comp, flip_zip hl hab]
  · intro a ha
    rw [map_fst_zip _ _ (by simp)] at ha
    simp only [Function.comp, flip_not_mem ha]

theorem assign_back {α : Type} (l : List ℕ) (f g : ℕ → α) (h : ∀ a, a ∉ l → g a = f a) :
    assign (l.zip (l.map f)) g = f := by
  refine assign_eq _ _ _ ?_ ?_
  · rintro ⟨a, x⟩ hx
    rw [List.zip_map_right, List.mem_map] at hx
    obtain ⟨⟨a', b⟩, hab, he⟩ := hx
    simp only [Prod.map, id, Prod.mk.injEq] at he
    obtain ⟨rfl, rfl⟩ := he
    have : a' = b := by
      obtain ⟨i, hi, e⟩ := List.getElem_of_mem hab
      rw [List.getElem_zip] at e
      exact (Prod.mk.inj e).1.symm.trans (Prod.mk.inj e).2
    rw [this]
  · intro a ha
    rw [map_fst_zip _ _ (by simp)] at ha
    exact (h a ha).symm

theorem restoreTypes_eq (l seq : List ℕ) (s : Sys) :
    restoreTypes l seq s = { s with typ := assign (l.zip seq) s.typ } := by
  unfold restoreTypes assign
  generalize l.zip seq = P
  induction P generalizing s with
  | nil => rfl
  | cons x P ih => rw [List.foldl_cons, ih]; rfl

theorem reverseTypes_eq (l : List ℕ) (hl : l.Nodup) (s : Sys) :
    reverseTypes l (l.map s.typ) s = .ok { s with typ := s.typ ∘ flip l } := by
  have key : ∀ (l r : List ℕ) (s : Sys) (t : ℕ → ℕ), l.Nodup → (∀ a ∈ l, s.typ a = t a) →
      r.length = l.length →
      loop (fun (s : Sys) (x : ℕ × ℕ × ℕ) => do
        require (s.typ x.1 = x.2.1)
        Out.ok (s.setTyp x.1 x.2.2)) (l.zip ((l.map t).zip r)) s =
      .ok { s with typ := assign (l.zip r) s.typ } := by
    intro l
    induction l with
    | nil => intro r s t _ _ _; simp [assign]
    | cons a l ih =>
      intro r s t hl ht hr
      cases r with
      | nil => simp at hr
      | cons x r =>
        rw [List.nodup_cons] at hl
        simp only [List.map_cons, List.zip_cons_cons, loop_cons]
        rw [require_true (ht a (List.mem_cons_self ..)), ok_bind, ok_bind]
        rw [ih r (s.setTyp a x) t hl.2 (by
          intro b hb
          have : b ≠ a := by rintro rfl; exact hl.1 hb
          simp only [Sys.setTyp, Function.update_of_ne this]
          exact ht b (List.mem_cons_of_mem _ hb)) (by simpa using hr)]
        rfl
  unfold reverseTypes
  rw [key l _ s s.typ hl (fun _ _ => rfl) (by simp), assign_flip l hl]

/-- Reversal of positions with update of cells. -/
theorem reversePositions_ok {s : Sys} (h : At w lengths cutoff s.cells s.pos) {l : List ℕ}
    (hl : l.Nodup) (hm : ∀ a ∈ l, a ∈ w.atoms)
    (hf : FitsBoth w (grid lengths cutoff) s.pos (s.pos ∘ flip l)) :
    ∃ c, reversePositions w l s = .ok { s with pos := s.pos ∘ flip l, cells := c } ∧
      At w lengths cutoff c (s.pos ∘ flip l) := by
  have key : ∀ (P : List (ℕ × Vec)) (s' : Sys), At w lengths cutoff s'.cells s'.pos →
      (∀ x ∈ P, x.1 ∈ w.atoms ∧ x.2 = (s.pos ∘ flip l) x.1 ∧ InUnit (w.gen x.2)) →
      (∀ a ∈ w.atoms, s'.pos a = s.pos a ∨ s'.pos a = (s.pos ∘ flip l) a) →
      ∃ c, loop (fun (s : Sys) (x : ℕ × Vec) => updateCell w (s.setPos x.1 x.2) x.1) P s' =
        .ok { s' with pos := assign P s'.pos, cells := c } ∧
        At w lengths cutoff c (assign P s'.pos) := by
    intro P
    induction P with
    | nil => intro s' h' _ _; exact ⟨s'.cells, by simp [assign], h'⟩
    | cons x P ih =>
      intro s' h' hP hmix
      obtain ⟨h1, h2, h3⟩ := hP x (List.mem_cons_self ..)
      have hmix' : ∀ a ∈ w.atoms, Function.update s'.pos x.1 x.2 a = s.pos a ∨
          Function.update s'.pos x.1 x.2 a = (s.pos ∘ flip l) a := by
        intro a ha
        by_cases hax : a = x.1
        · right; rw [hax, Function.update_self]; exact h2
        · rw [Function.update_of_ne hax]; exact hmix a ha
      obtain ⟨c, hc, hat⟩ := updateCell_ok (s := s'.setPos x.1 x.2) (q := s'.pos) (a := x.1) h' h1
        (by simp only [Function.update_self]; exact h3)
        (by simp only [Function.update_self]; exact hf.mix hmix')
      simp only [Function.update_self] at hat
      obtain ⟨c', hc', hat'⟩ := ih { s'.setPos x.1 x.2 with cells := c } hat
        (fun y hy => hP y (List.mem_cons_of_mem _ hy)) hmix'
      refine ⟨c', ?_, hat'⟩
      rw [loop_cons, hc, ok_bind, hc']
      rfl
  obtain ⟨c, hc, hat⟩ := key (l.zip (l.map s.pos).reverse) s h (by
    rintro ⟨a, x⟩ hx
    have hx' := hx
    rw [← List.map_reverse, List.zip_map_right, List.mem_map] at hx
    obtain ⟨⟨a', b⟩, hab, he⟩ := hx
    simp only [Prod.map, id, Prod.mk.injEq] at he
    obtain ⟨rfl, rfl⟩ := he
    have hmem := List.of_mem_zip hab
    refine ⟨hm _ hmem.1, ?_, h.unit (hm b (List.mem_reverse.1 hmem.2))⟩
    simp only [Function.comp, flip_zip hl hab]) (fun a _ => Or.inl rfl)
  rw [assign_flip l hl] at hc hat
  exact ⟨c, hc, hat⟩

/-- Energy computed by `EndSwapMove`: pairs and external energy. -/
noncomputable def molE (w : World) (p : ℕ → Vec) (t : ℕ → ℕ) (m : ℕ) : ℝ :=
  molPairE w p t m + ∑ a ∈ (w.molAtoms m).toFinset, w.ext (p a) (t a)

theorem molEnergy_ok (ok : w.OK lengths bravais cutoff) {s : Sys} (m : ℕ)
    (h : At w lengths cutoff s.cells s.pos) :
    molEnergy w s m = .ok (molE w s.pos s.typ m) := by
  unfold molEnergy molE
  rw [molPair_ok ok m h, ok_bind, List.sum_toFinset _ (ok.molNodup m)]

/-- The energy that decides about acceptance of a swap. -/
theorem endSwap_eq (ok : w.OK lengths bravais cutoff) {s : Sys}
    (h : At w lengths cutoff s.cells s.pos) (m : ℕ) (v : ℝ)
    (hf : FitsBoth w (grid lengths cutoff) s.pos (s.pos ∘ flip (w.molAtoms m))) :
    ∃ c, At w lengths cutoff c (s.pos ∘ flip (w.molAtoms m)) ∧
      endSwap w m ((w.molAtoms m).map s.typ) v s = .ok
        (if metropolis (boltzmann w (molE w s.pos (s.typ ∘ flip (w.molAtoms m)) m -
            molE w s.pos s.typ m)) v = true
          then ({ s with pos := s.pos ∘ flip (w.molAtoms m), cells := c,
                         nAttempt := s.nAttempt + 1, nAccept := s.nAccept + 1 }, true)
          else ({ s with nAttempt := s.nAttempt + 1 }, false)) := by
  have hnd := ok.molNodup m
  obtain ⟨c, hc, hat⟩ := reversePositions_ok (s := s.attempt) h hnd
    (fun a ha => (ok.molMem m a ha).1) hf
  refine ⟨c, hat, ?_⟩
  have e1 := molEnergy_ok ok (s := s.attempt) m h
  have e2 := reverseTypes_eq (w.molAtoms m) hnd s.attempt
  have e3 := molEnergy_ok ok (s := { s.attempt with typ := s.typ ∘ flip (w.molAtoms m) }) m h
  have e4 : restoreTypes (w.molAtoms m) ((w.molAtoms m).map s.typ)
      { s.attempt with typ := s.typ ∘ flip (w.molAtoms m) } = s.attempt := by
    rw [restoreTypes_eq]
    congr 1
    exact assign_back _ _ _ fun a ha => by simp only [Function.comp, flip_not_mem ha]
  unfold endSwap
  simp only [e1, ok_bind] at e2 ⊢
  rw [e2]
  simp only [ok_bind, e3, e4]
  cases metropolis (boltzmann w (molE w s.pos (s.typ ∘ flip (w.molAtoms m)) m -
    molE w s.pos s.typ m)) v
  · simp [finishSwap]
  · simp [finishSwap, hc]

/-- **C39 (swap of chain ends).** -/
theorem C39_swap (ok : w.OK lengths bravais cutoff) {s : Sys}
    (h : At w lengths cutoff s.cells s.pos) (m : ℕ) (v : ℝ)
    (hf : FitsBoth w (grid lengths cutoff) s.pos (s.pos ∘ flip (w.molAtoms m))) :
    ∃ c acc, At w lengths cutoff c (s.pos ∘ flip (w.molAtoms m)) ∧
      endSwap w m ((w.molAtoms m).map s.typ) v s = .ok
        (if acc = true
          then ({ s with pos := s.pos ∘ flip (w.molAtoms m), cells := c,
                         nAttempt := s.nAttempt + 1, nAccept := s.nAccept + 1 }, true)
          else ({ s with nAttempt := s.nAttempt + 1 }, false)) := by
  obtain ⟨c, h1, h2⟩ := endSwap_eq ok h m v hf
  exact ⟨c, _, h1, h2⟩

/-! ### Semigrand move -/

/-- Types after a change of the state of a molecule. -/
def typesOf (w : World) (m : ℕ) (c : Fin 2) (t : ℕ → ℕ) : ℕ → ℕ :=
  fun a => if a ∈ w.molAtoms m then w.stateType c else t a

theorem setState_eq (w : World) (m : ℕ) (c : Fin 2) (s : Sys) :
    setState w m c s = 
      { s with
        typ := typesOf w m c s.typ
        state := Function.update s.state m (some c)
        occ := newOcc s.occ (s.state m) c } := by
  have key : ∀ (l : List ℕ) (x : ℕ) (s : Sys), l.foldl (fun s a => s.setTyp a x) s =
      { s with typ := fun a => if a ∈ l then x else s.typ a } := by
    intro l x
    induction l with
    | nil => intro s; simp
    | cons a l ih =>
      intro s
      rw [List.foldl_cons, ih]
      congr 1
      funext b
      by_cases hb : b ∈ l
      · simp [hb]
      · by_cases hba : b = a
        · subst hba; simp [hb]
        · simp [hb, hba]
  unfold setState
  rw [key]
  rfl

/-- The ratio used by the semigrand move, with the energy of the pairs of the
molecule. -/
noncomputable def sgRatio (w : World) (s : Sys) (m : ℕ) (c : Fin 2) : ℝ :=
  Real.exp (-w.beta * (molPairE w s.pos (typesOf w m (toggle (some c)) s.typ) m -
    molPairE w s.pos s.typ m)) * w.weight (toggle (some c)) / w.weight c

/-- **C39 (semigrand move).**  A molecule in state `c`, whose atoms have the type
of that state, changes to the other state or keeps its state; the occupation
numbers follow. -/
theorem C39_semigrand (ok : w.OK lengths bravais cutoff) {s : Sys}
    (h : At w lengths cutoff s.cells s.pos) (m : ℕ) (v : ℝ) {c : Fin 2} (hc : s.state m = some c)
    (ht : ∀ a ∈ w.molAtoms m, s.typ a = w.stateType c) :
    semiGrand w m v s = .ok (if metropolis (sgRatio w s m c) v = true
      then ({ s with typ := typesOf w m (toggle (some c)) s.typ
                     state := Function.update s.state m (some (toggle (some c)))
                     occ := Function.update (Function.update s.occ c (s.occ c - 1))
                       (toggle (some c)) (s.occ (toggle (some c)) + 1)
                     nAttempt := s.nAttempt + 1
                     nAccept := s.nAccept + 1 }, true)
      else ({ s with nAttempt := s.nAttempt + 1 }, false)) := by
  have hne : toggle (some c) ≠ c := by
    fin_cases c <;> simp [toggle]
  have e1 := molPair_ok ok (s := s.attempt) m h
  have e2 := molPair_ok ok (s := setState w m (toggle (s.attempt.state m)) s.attempt) m (by
    rw [setState_eq]; exact h)
  have hocc : newOcc s.occ (some c) (toggle (some c)) =
      Function.update (Function.update s.occ c (s.occ c - 1))
        (toggle (some c)) (s.occ (toggle (some c)) + 1) := by
    unfold newOcc
    simp only [Function.update_of_ne hne]
  unfold semiGrand
  simp only [e1, e2, ok_bind]
  simp only [setState_eq, hc, weightOf, ok_bind]
  change Out.ok (finishSemiGrand w m c _ (metropolis (sgRatio w s m c) v)) = _
  cases metropolis (sgRatio w s m c) v
  · simp only [finishSemiGrand, setState_eq, Bool.false_eq_true, if_false, Function.update_self]
    congr 2
    congr 1
    · funext a
      unfold typesOf
      split
      · next ha => exact (ht a ha).symm
      · rfl
    · rw [Function.update_idem, ← hc, Function.update_eq_self]
    · rw [hocc]
      funext i
      unfold newOcc
      simp only [Function.update_self]
      by_cases hi : i = c
      · subst hi
        rw [Function.update_self, Function.update_of_ne hne.symm, Function.update_of_ne hne.symm,
          Function.update_self]
        ring
      · rw [Function.update_of_ne hi]
        by_cases hi' : i = toggle (some c)
        · subst hi'; rw [Function.update_self]; ring
        · rw [Function.update_of_ne hi', Function.update_of_ne hi', Function.update_of_ne hi]
  · simp only [finishSemiGrand, if_true, hocc]

/-- A molecule whose state was never set makes the program read outside the
array of weights. -/
theorem C39_semigrand_null (ok : w.OK lengths bravais cutoff) {s : Sys}
    (h : At w lengths cutoff s.cells s.pos) (m : ℕ) (v : ℝ) (hc : s.state m = none) :
    semiGrand w m v s = .ub := by
  have e1 := molPair_ok ok (s := s.attempt) m h
  have e2 := molPair_ok ok (s := setState w m (toggle (s.attempt.state m)) s.attempt) m (by
    rw [setState_eq]; exact h)
  unfold semiGrand
  simp only [e1, e2, ok_bind]
  simp [hc, weightOf]

end Verif.McMoves
