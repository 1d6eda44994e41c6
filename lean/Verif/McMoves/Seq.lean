/-
C39 for sequences of moves.
-/
import Verif.McMoves.Balance

set_option autoImplicit false

namespace Verif.McMoves

open Verif.Boundary Verif.McCellList Verif.McCell
open Verif.Cpp
open Verif.Cpp.Out

variable {w : World} {lengths : Vec} {bravais : Fin 3 → Vec} {cutoff : ℝ}

/-- A move with its random choices, without the deviate that decides about
acceptance. -/
inductive Move where
  | atom (a : ℕ) (u : Vec)
  | rigid (m : ℕ) (dr : Vec)
  | swap (m : ℕ) (seq : List ℕ)
  | semi (m : ℕ)

/-- `McMove::move()` of the four classes. -/
noncomputable def Move.run (w : World) (v : ℝ) (s : Sys) : Move → Out (Sys × Bool)
  | .atom a u => atomDisplace w a u v s
  | .rigid m dr => rigidDisplace w m dr v s
  | .swap m seq => endSwap w m seq v s
  | .semi m => semiGrand w m v s

/-- A sequence of moves as in `McSimulation::simulate`, McSimulation.cpp:542, with
the record of which were accepted. -/
noncomputable def runMoves (w : World) : List (Move × ℝ) → Sys → Out (Sys × List Bool)
  | [], s => ok (s, [])
  | x :: l, s => do
    let (s1, b) ← x.1.run w x.2 s
    let (s2, bs) ← runMoves w l s1
    ok (s2, b :: bs)

/-- The observable state: positions, types, states of molecules, occupancies. -/
structure View where
  pos : ℕ → Vec
  typ : ℕ → ℕ
  state : ℕ → Option (Fin 2)
  occ : Fin 2 → ℤ

def Sys.view (s : Sys) : View := ⟨s.pos, s.typ, s.state, s.occ⟩

/-- Exchange of one molecule between states. -/
def exchange (occ : Fin 2 → ℤ) (c c' : Fin 2) : Fin 2 → ℤ :=
  Function.update (Function.update occ c (occ c - 1)) c' (occ c' + 1)

/-- What an accepted move does: the specification. -/
def Move.effect (w : World) (x : View) : Move → View
  | .atom a u => { x with pos := Function.update x.pos a (w.shift (x.pos a + u)) }
  | .rigid m dr =>
    { x with pos := fun a => if a ∈ w.molAtoms m then w.shift (x.pos a + dr) else x.pos a }
  | .swap m _ => { x with pos := x.pos ∘ flip (w.molAtoms m) }
  | .semi m =>
    match x.state m with
    | none => x
    | some c =>
      { x with typ := typesOf w m (toggle (some c)) x.typ
               state := Function.update x.state m (some (toggle (some c)))
               occ := exchange x.occ c (toggle (some c)) }

/-- Effects of the accepted moves in a sequence. -/
def effects (w : World) : List (Move × ℝ) → List Bool → View → View
  | x :: l, true :: bs, y => effects w l bs (x.1.effect w y)
  | _ :: l, false :: bs, y => effects w l bs y
  | _, _, y => y

/-- Moves that may be attempted: displacements within the limits, swaps for
molecules of a species with the given sequence of types, semigrand moves for
molecules with a state. -/
def Move.Allowed (w : World) (δ : ℝ) (t0 : ℕ → ℕ) (semi : ℕ → Prop) : Move → Prop
  | .atom a u => a ∈ w.atoms ∧ u ∈ displacements δ
  | .rigid _ dr => dr ∈ displacements δ
  | .swap m seq => ¬ semi m ∧ seq = (w.molAtoms m).map t0
  | .semi m => semi m

/-- Invariant of a simulation: the cell list holds the positions, molecules with
a state have the types of that state, the others their initial types. -/
structure Good (w : World) (lengths : Vec) (cutoff : ℝ) (t0 : ℕ → ℕ) (semi : ℕ → Prop) (s : Sys) :
    Prop where
  held : At w lengths cutoff s.cells s.pos
  some : ∀ m, semi m → ∃ c, s.state m = some c ∧ ∀ a ∈ w.molAtoms m, s.typ a = w.stateType c
  none : ∀ m, ¬ semi m → ∀ a ∈ w.molAtoms m, s.typ a = t0 a

theorem fits_all (hcap : w.atoms.card < w.cellCap) (n : IVec) (q q' : ℕ → Vec) :
    FitsBoth w n q q' :=
  fun _ _ hT _ => lt_of_le_of_lt (Finset.card_le_card hT) hcap

theorem fits_one (hcap : w.atoms.card < w.cellCap) (n : IVec) (q : ℕ → Vec) : Fits w n q :=
  (fits_all hcap n q q).mix fun _ _ => Or.inl rfl

/-- What one move does. -/
structure Did (w : World) (mv : Move) (s s' : Sys) (b : Bool) : Prop where
  view : s'.view = if b = true then mv.effect w s.view else s.view
  cells : b = false → s'.cells = s.cells
  attempt : s'.nAttempt = s.nAttempt + 1
  accept : s'.nAccept = s.nAccept + if b = true then 1 else 0

/-- One move. -/
theorem move_good (ok : w.OK lengths bravais cutoff) {δ : ℝ} (hw : Wraps w bravais δ)
    (hcap : w.atoms.card < w.cellCap) {t0 : ℕ → ℕ} {semi : ℕ → Prop} {s : Sys}
    (h : Good w lengths cutoff t0 semi s) (mv : Move) (hm : mv.Allowed w δ t0 semi) (v : ℝ) :
    ∃ s' b, mv.run w v s = .ok (s', b) ∧ Good w lengths cutoff t0 semi s' ∧ Did w mv s s' b := by
  cases mv with
  | atom a u =>
    obtain ⟨ha, hu⟩ := hm
    obtain ⟨c, hc, he⟩ := C39_atom ok h.held ha u v (hw _ (h.held.unit ha) u hu).1
      (fits_one hcap _ _)
    simp only [Move.run, he]
    split
    · exact ⟨_, _, rfl, ⟨hc, h.some, h.none⟩, ⟨rfl, by simp, rfl, rfl⟩⟩
    · exact ⟨_, _, rfl, ⟨h.held, h.some, h.none⟩, ⟨rfl, by simp, rfl, rfl⟩⟩
  | rigid m dr =>
    obtain ⟨c, acc, hc, he⟩ := C39_rigid ok h.held m dr v
      (fun a ha => (hw _ (h.held.unit (ok.molMem m a ha).1) dr hm).1) (fits_all hcap _ _ _)
    simp only [Move.run, he]
    cases acc
    · exact ⟨_, _, rfl, ⟨h.held, h.some, h.none⟩, ⟨rfl, by simp, rfl, rfl⟩⟩
    · exact ⟨_, _, rfl, ⟨hc, h.some, h.none⟩, ⟨rfl, by simp, rfl, rfl⟩⟩
  | swap m seq =>
    obtain ⟨hm1, rfl⟩ := hm
    have hseq : (w.molAtoms m).map t0 = (w.molAtoms m).map s.typ :=
      List.map_congr_left fun a ha => (h.none m hm1 a ha).symm
    obtain ⟨c, acc, hc, he⟩ := C39_swap ok h.held m v (fits_all hcap _ _ _)
    simp only [Move.run, hseq, he]
    cases acc
    · exact ⟨_, _, rfl, ⟨h.held, h.some, h.none⟩, ⟨rfl, by simp, rfl, rfl⟩⟩
    · exact ⟨_, _, rfl, ⟨hc, h.some, h.none⟩, ⟨rfl, by simp, rfl, rfl⟩⟩
  | semi m =>
    obtain ⟨c, hc, ht⟩ := h.some m hm
    have he := C39_semigrand ok h.held m v hc ht
    simp only [Move.run, he]
    split
    · refine ⟨_, _, rfl, ⟨h.held, ?_, ?_⟩, ⟨?_, by simp, rfl, rfl⟩⟩
      · intro m' hm'
        by_cases hmm : m' = m
        · subst hmm
          exact ⟨toggle (some c), by simp only [Function.update_self], fun a ha => by
            simp only [typesOf, ha, if_true]⟩
        · obtain ⟨c', hc', ht'⟩ := h.some m' hm'
          refine ⟨c', by simp only [Function.update_of_ne hmm]; exact hc', fun a ha => ?_⟩
          have : a ∉ w.molAtoms m := fun hx =>
            hmm ((ok.molMem m' a ha).2.symm.trans (ok.molMem m a hx).2)
          simp only [typesOf, this, if_false]
          exact ht' a ha
      · intro m' hm' a ha
        have : a ∉ w.molAtoms m := fun hx => by
          have : m' = m := (ok.molMem m' a ha).2.symm.trans (ok.molMem m a hx).2
          subst this
          exact hm' hm
        simp only [typesOf, this, if_false]
        exact h.none m' hm' a ha
      · simp only [if_true, Sys.view, Move.effect, hc, exchange]
    · exact ⟨_, _, rfl, ⟨h.held, h.some, h.none⟩, ⟨rfl, by simp, rfl, rfl⟩⟩

/-- **C39.**  Any sequence of moves succeeds.  Afterwards the cell list holds the
positions; positions, types, states and occupancies are those obtained from the
accepted moves alone; the counters are the numbers of moves and of accepted
moves. -/
theorem C39_sequence (ok : w.OK lengths bravais cutoff) {δ : ℝ} (hw : Wraps w bravais δ)
    (hcap : w.atoms.card < w.cellCap) {t0 : ℕ → ℕ} {semi : ℕ → Prop} (l : List (Move × ℝ)) (s : Sys)
    (h : Good w lengths cutoff t0 semi s) (hl : ∀ x ∈ l, x.1.Allowed w δ t0 semi) :
    ∃ s' bs, runMoves w l s = .ok (s', bs) ∧ bs.length = l.length ∧
      Good w lengths cutoff t0 semi s' ∧ s'.view = effects w l bs s.view ∧
      s'.nAttempt = s.nAttempt + l.length ∧ s'.nAccept = s.nAccept + bs.count true := by
  induction l generalizing s with
  | nil => exact ⟨s, [], rfl, rfl, h, rfl, by simp, by simp⟩
  | cons x l ih =>
    obtain ⟨s1, b, h1, h2, h3⟩ := move_good ok hw hcap h x.1 (hl x (List.mem_cons_self ..)) x.2
    obtain ⟨s2, bs, h4, h5, h6, h7, h8, h9⟩ := ih s1 h2 fun y hy => hl y (List.mem_cons_of_mem _ hy)
    refine ⟨s2, b :: bs, ?_, by simp [h5], h6, ?_, ?_, ?_⟩
    · unfold runMoves
      rw [h1, ok_bind]
      simp only [h4, ok_bind]
    · rw [h7, h3.view]
      cases b <;> rfl
    · rw [h8, h3.attempt, List.length_cons]; omega
    · rw [h9, h3.accept]
      cases b <;> simp <;> omega

end Verif.McMoves
