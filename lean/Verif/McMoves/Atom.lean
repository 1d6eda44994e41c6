/-
C39 for the displacement of an atom and of a molecule.
-/
import Verif.McMoves.Energy

set_option autoImplicit false

namespace Verif.McMoves

open Verif.Boundary Verif.McCellList Verif.McCell
open Verif.Cpp
open Verif.Cpp.Out

variable {w : World} {lengths : Vec} {bravais : Fin 3 → Vec} {cutoff : ℝ}

/-- The Metropolis rule applied to the change of the energy of the system: the
specification of acceptance. -/
noncomputable def Accepts (w : World) (p p' : ℕ → Vec) (t t' : ℕ → ℕ) (v : ℝ) : Bool :=
  metropolis (Real.exp (-w.beta * (energy w p' t' - energy w p t))) v

/-- **C39 (displacement of an atom).**  The move never fails.  It is accepted
according to the change of the total energy.  If it is rejected, only the
counter of attempts has changed; if it is accepted, only the position of the
atom, its place in the cell list and the counters have changed, and the cell
list holds the new positions. -/
theorem C39_atom (ok : w.OK lengths bravais cutoff) {s : Sys} (h : At w lengths cutoff s.cells s.pos)
    {a : ℕ} (ha : a ∈ w.atoms) (u : Vec) (v : ℝ)
    (hu : InUnit (w.gen (w.shift (s.pos a + u))))
    (hf : Fits w (grid lengths cutoff) (Function.update s.pos a (w.shift (s.pos a + u)))) :
    ∃ c, At w lengths cutoff c (Function.update s.pos a (w.shift (s.pos a + u))) ∧
      atomDisplace w a u v s = .ok
        (if Accepts w s.pos (Function.update s.pos a (w.shift (s.pos a + u))) s.typ s.typ v = true
          then ({ s with pos := Function.update s.pos a (w.shift (s.pos a + u)), cells := c,
                         nAttempt := s.nAttempt + 1, nAccept := s.nAccept + 1 }, true)
          else ({ s with nAttempt := s.nAttempt + 1 }, false)) := by
  set p' := Function.update s.pos a (w.shift (s.pos a + u)) with hp'
  have hne : ∀ b, b ≠ a → s.pos b = p' b := fun b hb => by rw [hp', Function.update_of_ne hb]
  have hself : p' a = w.shift (s.pos a + u) := by rw [hp', Function.update_self]
  have e1 : atomEnergy w s.attempt a = .ok (atomE w s.attempt a) :=
    atomEnergy_ok ok (q := s.pos) h (h.unit ha) fun _ _ _ => rfl
  have e2 : atomEnergy w (s.attempt.setPos a (w.shift (s.attempt.pos a + u))) a =
      .ok (atomE w (s.attempt.setPos a (w.shift (s.attempt.pos a + u))) a) := by
    refine atomEnergy_ok ok (q := s.pos) h ?_ fun b _ hb => hne b hb
    change InUnit (w.gen (p' a))
    rw [hself]; exact hu
  obtain ⟨c, hc, hat⟩ := updateCell_ok (s := s.attempt.setPos a (w.shift (s.attempt.pos a + u)))
    (q := s.pos) (a := a) h ha (by change InUnit (w.gen (p' a)); rw [hself]; exact hu)
    (by change Fits w _ (Function.update s.pos a (p' a)); rw [hself]; exact hf)
  have hat' : At w lengths cutoff c p' := by
    have : Function.update s.pos a (p' a) = p' := by rw [hself]
    rw [← this]; exact hat
  refine ⟨c, hat', ?_⟩
  have hd := atomE_diff ok ha s.attempt (s.attempt.setPos a (w.shift (s.attempt.pos a + u))) hne rfl
  unfold atomDisplace
  simp only [e1, e2, ok_bind]
  have hacc : metropolis (boltzmann w (atomE w (s.attempt.setPos a (w.shift (s.attempt.pos a + u))) a
      - atomE w s.attempt a)) v = Accepts w s.pos p' s.typ s.typ v := by
    rw [hd]; rfl
  rw [hacc]
  cases hA : Accepts w s.pos p' s.typ s.typ v
  · have hback : (s.attempt.setPos a (w.shift (s.attempt.pos a + u))).setPos a (s.attempt.pos a) =
        s.attempt := by
      simp only [Sys.setPos, Function.update_idem, Function.update_eq_self]
    simp only [finishAtom, Bool.false_eq_true, if_false]
    rw [hback]
  · simp only [finishAtom, hc, ok_bind, if_true]
    rfl

/-! ### Several atoms at once -/

/-- No cell is filled to capacity even if every atom is counted at two places. -/
def FitsBoth (w : World) (n : IVec) (q q' : ℕ → Vec) : Prop :=
  ∀ (c : IVec) (T : Finset ℕ), T ⊆ w.atoms →
    (∀ a ∈ T, InBox n (w.gen (q a)) c ∨ InBox n (w.gen (q' a)) c) → T.card < w.cellCap

theorem FitsBoth.mix {n : IVec} {q q' p : ℕ → Vec} (h : FitsBoth w n q q')
    (hp : ∀ a ∈ w.atoms, p a = q a ∨ p a = q' a) : Fits w n p := by
  intro c T hT hb
  refine h c T hT fun a ha => ?_
  have := hb a ha
  rcases hp a (hT ha) with e | e
  · left; rw [← e]; exact this
  · right; rw [← e]; exact this

/-- New positions for the atoms in a list. -/
def mixed (l : List ℕ) (q q' : ℕ → Vec) : ℕ → Vec := fun a => if a ∈ l then q' a else q a

theorem mixed_mix (l : List ℕ) (q q' : ℕ → Vec) (a : ℕ) :
    mixed l q q' a = q a ∨ mixed l q q' a = q' a := by
  unfold mixed; split <;> simp

/-- Updating the cells of a list of atoms, one after the other. -/
theorem updateCells_ok {l : List ℕ} {s : Sys} {q : ℕ → Vec} (h : At w lengths cutoff s.cells q)
    (hl : ∀ a ∈ l, a ∈ w.atoms) (hu : ∀ a ∈ l, InUnit (w.gen (s.pos a)))
    (hf : FitsBoth w (grid lengths cutoff) q s.pos) :
    ∃ c, loop (updateCell w) l s = .ok { s with cells := c } ∧
      At w lengths cutoff c (mixed l q s.pos) := by
  have key : ∀ (l : List ℕ) (s : Sys) (q0 : ℕ → Vec), At w lengths cutoff s.cells q0 →
      (∀ a ∈ w.atoms, q0 a = q a ∨ q0 a = s.pos a) →
      (∀ a ∈ l, a ∈ w.atoms) → (∀ a ∈ l, InUnit (w.gen (s.pos a))) →
      FitsBoth w (grid lengths cutoff) q s.pos →
      ∃ c, loop (updateCell w) l s = .ok { s with cells := c } ∧
        At w lengths cutoff c (mixed l q0 s.pos) := by
    intro l
    induction l with
    | nil =>
      intro s q0 h _ _ _ _
      exact ⟨s.cells, rfl, h.congr fun a _ => by simp [mixed]⟩
    | cons a l ih =>
      intro s q0 h h0 hl hu hf
      have hfit : Fits w (grid lengths cutoff) (Function.update q0 a (s.pos a)) := by
        refine hf.mix fun b hb => ?_
        by_cases hba : b = a
        · subst hba; right; rw [Function.update_self]
        · rw [Function.update_of_ne hba]; exact h0 b hb
      obtain ⟨c, h1, h2⟩ := updateCell_ok h (hl a (List.mem_cons_self ..))
        (hu a (List.mem_cons_self ..)) hfit
      obtain ⟨c', h3, h4⟩ := ih { s with cells := c } (Function.update q0 a (s.pos a)) h2 (by
          intro b hb
          by_cases hba : b = a
          · subst hba; right; rw [Function.update_self]
          · rw [Function.update_of_ne hba]; exact h0 b hb)
        (fun b hb => hl b (List.mem_cons_of_mem _ hb)) (fun b hb => hu b (List.mem_cons_of_mem _ hb)) hf
      refine ⟨c', ?_, ?_⟩
      · rw [loop_cons, h1, ok_bind, h3]
      · refine h4.congr fun b _ => ?_
        unfold mixed
        by_cases hba : b = a
        · subst hba; simp
        · simp [hba]
  exact key l s q h (fun a _ => Or.inl rfl) hl hu hf

/-- Positions after a rigid displacement. -/
def displaced (w : World) (l : List ℕ) (dr : Vec) (p : ℕ → Vec) : ℕ → Vec :=
  fun a => if a ∈ l then w.shift (p a + dr) else p a

theorem rigidAtom_ok (ok : w.OK lengths bravais cutoff) {s : Sys} {q : ℕ → Vec} {a : ℕ}
    (h : At w lengths cutoff s.cells q) (hr : InUnit (w.gen (s.pos a))) :
    ∃ e, rigidAtom w s a = .ok e := by
  obtain ⟨l, h1, -⟩ := near_ok ok h hr
  unfold rigidAtom atomPair
  rw [h1]
  exact ⟨_, rfl⟩

theorem rigidOld_ok (ok : w.OK lengths bravais cutoff) {s : Sys} {q : ℕ → Vec} {l : List ℕ}
    (h : At w lengths cutoff s.cells q) (hr : ∀ a ∈ l, InUnit (w.gen (s.pos a))) :
    ∃ e, rigidOld w l s = .ok e := by
  unfold rigidOld
  have : ∀ x : ℝ, ∃ e, loop (fun e a => do
    let x ← rigidAtom w s a
    Out.ok (e + x)) l x = .ok e := by
    induction l with
    | nil => intro x; exact ⟨x, rfl⟩
    | cons a l ih =>
      intro x
      obtain ⟨e, he⟩ := rigidAtom_ok ok h (hr a (List.mem_cons_self ..))
      obtain ⟨e', he'⟩ := ih (fun b hb => hr b (List.mem_cons_of_mem _ hb)) (x + e)
      refine ⟨e', ?_⟩
      simp only [loop_cons, he, ok_bind]
      exact he'
  exact this 0

/-- The loop that displaces the atoms. -/
noncomputable def rigidStep (w : World) (dr : Vec) (st : Sys × ℝ) (a : ℕ) : Out (Sys × ℝ) := do
  let s1 := st.1.setPos a (w.shift (st.1.pos a + dr))
  let x ← rigidAtom w s1 a
  Out.ok (s1, st.2 + x)

theorem rigidNew_eq (w : World) (l : List ℕ) (dr : Vec) (s : Sys) :
    rigidNew w l dr s = loop (rigidStep w dr) l (s, 0) := rfl

theorem displaced_cons (w : World) (a : ℕ) (l : List ℕ) (dr : Vec) (p : ℕ → Vec) (ha : a ∉ l) :
    displaced w l dr (Function.update p a (w.shift (p a + dr))) = displaced w (a :: l) dr p := by
  funext b
  unfold displaced
  by_cases hba : b = a
  · subst hba
    simp [ha]
  · simp [hba]

theorem rigidNew_ok (ok : w.OK lengths bravais cutoff) {q : ℕ → Vec} (dr : Vec) (l : List ℕ)
    (hl : l.Nodup) (s : Sys) (x : ℝ) (h : At w lengths cutoff s.cells q)
    (hr : ∀ a ∈ l, InUnit (w.gen (w.shift (s.pos a + dr)))) :
    ∃ e, loop (rigidStep w dr) l (s, x) = .ok ({ s with pos := displaced w l dr s.pos }, e) := by
  induction l generalizing s x with
  | nil => exact ⟨x, by
    have : displaced w [] dr s.pos = s.pos := by funext b; simp [displaced]
    simp only [this, loop_nil]⟩
  | cons a l ih =>
    rw [List.nodup_cons] at hl
    obtain ⟨e, he⟩ := rigidAtom_ok ok (s := s.setPos a (w.shift (s.pos a + dr))) (a := a) h (by
      simp only [Function.update_self]
      exact hr a (List.mem_cons_self ..))
    obtain ⟨e', he'⟩ := ih hl.2 (s.setPos a (w.shift (s.pos a + dr))) (x + e) h (by
      intro b hb
      have hba : b ≠ a := by rintro rfl; exact hl.1 hb
      simp only [Function.update_of_ne hba]
      exact hr b (List.mem_cons_of_mem _ hb))
    refine ⟨e', ?_⟩
    rw [loop_cons]
    unfold rigidStep at he' ⊢
    simp only [he, ok_bind]
    rw [he']
    simp only [displaced_cons w a l dr s.pos hl.1]

theorem restore_eq (l : List ℕ) (old : ℕ → Vec) (s : Sys) :
    restore l old s = { s with pos := fun a => if a ∈ l then old a else s.pos a } := by
  unfold restore
  induction l generalizing s with
  | nil => simp
  | cons a l ih =>
    rw [List.foldl_cons, ih]
    congr 1
    funext b
    by_cases hb : b ∈ l
    · simp [hb]
    · by_cases hba : b = a
      · subst hba; simp [hb]
      · simp [hb, hba]

/-- **C39 (rigid displacement).**  The move never fails; a rejected move changes
nothing but the counter of attempts, an accepted one displaces the atoms of the
molecule and leaves a cell list for the new positions.  (Whether it is accepted
is the subject of `C40_rigid`.) -/
theorem C39_rigid (ok : w.OK lengths bravais cutoff) {s : Sys} (h : At w lengths cutoff s.cells s.pos)
    (m : ℕ) (dr : Vec) (v : ℝ)
    (hu : ∀ a ∈ w.molAtoms m, InUnit (w.gen (w.shift (s.pos a + dr))))
    (hf : FitsBoth w (grid lengths cutoff) s.pos (displaced w (w.molAtoms m) dr s.pos)) :
    ∃ c acc, At w lengths cutoff c (displaced w (w.molAtoms m) dr s.pos) ∧
      rigidDisplace w m dr v s = .ok
        (if acc = true
          then ({ s with pos := displaced w (w.molAtoms m) dr s.pos, cells := c,
                         nAttempt := s.nAttempt + 1, nAccept := s.nAccept + 1 }, true)
          else ({ s with nAttempt := s.nAttempt + 1 }, false)) := by
  have hmem : ∀ a ∈ w.molAtoms m, a ∈ w.atoms := fun a ha => (ok.molMem m a ha).1
  obtain ⟨eOld, h1⟩ := rigidOld_ok ok (s := s.attempt) (l := w.molAtoms m) h
    fun a ha => h.unit (hmem a ha)
  obtain ⟨eNew, h2⟩ := rigidNew_ok ok dr (w.molAtoms m) (ok.molNodup m) s.attempt 0 h hu
  obtain ⟨c, h3, h4⟩ := updateCells_ok (l := w.molAtoms m)
    (s := { s.attempt with pos := displaced w (w.molAtoms m) dr s.pos }) (q := s.pos) h hmem (by
      intro a ha
      simp only [displaced, ha, if_true]
      exact hu a ha) hf
  refine ⟨c, metropolis (boltzmann w (eNew - eOld)) v, ?_, ?_⟩
  · refine h4.congr fun a _ => ?_
    unfold mixed displaced
    by_cases ha : a ∈ w.molAtoms m <;> simp [ha]
  · unfold rigidDisplace
    rw [← rigidNew_eq] at h2
    simp only [h1, h2, ok_bind]
    cases metropolis (boltzmann w (eNew - eOld)) v
    · simp only [finishRigid, restore_eq, Bool.false_eq_true, if_false]
      congr 2
      have : (fun a => if a ∈ w.molAtoms m then s.pos a
          else displaced w (w.molAtoms m) dr s.pos a) = s.pos := by
        funext a
        unfold displaced
        split <;> rfl
      rw [this]
    · simp only [finishRigid, h3, ok_bind, if_true]

end Verif.McMoves
