/-
C40, first part: the number compared with the random deviate is the ratio of the
Boltzmann weights of the new and the old state of the system.
-/
import Verif.McMoves.Swap

set_option autoImplicit false

namespace Verif.McMoves

open Verif.Boundary Verif.McCellList Verif.McCell
open Verif.Cpp
open Verif.Cpp.Out

variable {w : World} {lengths : Vec} {bravais : Fin 3 → Vec} {cutoff : ℝ}

/-- Energy of all pairs. -/
noncomputable def pairsE (w : World) (p : ℕ → Vec) (t : ℕ → ℕ) : ℝ :=
  ∑ a ∈ w.atoms, ∑ b ∈ w.atoms, if a < b then pairE w p t a b else 0

/-- The pairs of a molecule account for the whole change, if nothing else
changes. -/
theorem molPairE_diff (ok : w.OK lengths bravais cutoff) (m : ℕ) (p p' : ℕ → Vec) (t t' : ℕ → ℕ)
    (hp : ∀ b, b ∉ w.molAtoms m → p b = p' b) (ht : ∀ b, b ∉ w.molAtoms m → t b = t' b) :
    pairsE w p' t' - pairsE w p t = molPairE w p' t' m - molPairE w p t m := by
  unfold pairsE
  rw [split_pairs w.atoms (w.molAtoms m).toFinset _ (pairE_symm ok p' t'),
    split_pairs w.atoms (w.molAtoms m).toFinset _ (pairE_symm ok p t),
    ← molPairE_split ok p' t', ← molPairE_split ok p t]
  have : (∑ x ∈ w.atoms, ∑ b ∈ w.atoms, if x ∉ (w.molAtoms m).toFinset ∧
        b ∉ (w.molAtoms m).toFinset ∧ x < b then pairE w p' t' x b else 0) =
      ∑ x ∈ w.atoms, ∑ b ∈ w.atoms, if x ∉ (w.molAtoms m).toFinset ∧
        b ∉ (w.molAtoms m).toFinset ∧ x < b then pairE w p t x b else 0 := by
    refine Finset.sum_congr rfl fun x _ => Finset.sum_congr rfl fun b _ => ?_
    split
    · next h =>
      simp only [List.mem_toFinset] at h
      unfold pairE
      rw [hp x h.1, hp b h.2.1, ht x h.1, ht b h.2.1]
    · rfl
  rw [this]
  ring

theorem sum_diff_mol (ok : w.OK lengths bravais cutoff) (m : ℕ) (f g : ℕ → ℝ)
    (h : ∀ b, b ∉ w.molAtoms m → f b = g b) :
    ∑ b ∈ w.atoms, g b - ∑ b ∈ w.atoms, f b =
      ∑ b ∈ (w.molAtoms m).toFinset, g b - ∑ b ∈ (w.molAtoms m).toFinset, f b := by
  rw [← Finset.sum_sub_distrib, ← Finset.sum_sub_distrib]
  refine (Finset.sum_subset (fun a ha => (ok.molMem m a (List.mem_toFinset.1 ha)).1) ?_).symm
  intro b _ hb
  rw [h b (fun h => hb (List.mem_toFinset.2 h))]
  ring

/-! ### Rigid displacement -/

/-- Energy of one atom in the rigid move, in the specification. -/
noncomputable def rigidE (w : World) (p : ℕ → Vec) (t : ℕ → ℕ) (a : ℕ) : ℝ :=
  atomPairE w p t a + w.ext (p a) (t a) + w.tether a (p a)

/-- All pairs of atoms within the molecule are masked. -/
def FullyMasked (w : World) (m : ℕ) : Prop :=
  ∀ a ∈ w.molAtoms m, ∀ b ∈ w.molAtoms m, b ≠ a → w.masked a b = true

theorem rigidAtom_eq (ok : w.OK lengths bravais cutoff) {s : Sys} {q : ℕ → Vec} {a m : ℕ}
    (h : At w lengths cutoff s.cells q) (hm : FullyMasked w m) (ha : a ∈ w.molAtoms m)
    (hr : InUnit (w.gen (s.pos a))) (hq : ∀ b, b ∉ w.molAtoms m → q b = s.pos b) :
    rigidAtom w s a = .ok (rigidE w s.pos s.typ a) := by
  unfold rigidAtom
  rw [atomPair_ok ok h hr, ok_bind]
  · rfl
  · intro b _ hba hmask
    refine hq b fun hb => ?_
    rw [hm a ha b hb hba] at hmask
    exact absurd hmask (by decide)

theorem rigidE_congr {p p' : ℕ → Vec} {m a : ℕ} (t : ℕ → ℕ) (hm : FullyMasked w m)
    (ha : a ∈ w.molAtoms m) (h1 : p a = p' a) (h2 : ∀ b, b ∉ w.molAtoms m → p b = p' b) :
    rigidE w p t a = rigidE w p' t a := by
  unfold rigidE atomPairE
  rw [h1]
  congr 2
  refine Finset.sum_congr rfl fun b _ => ?_
  by_cases hba : b ≠ a
  · unfold pairE
    by_cases hb : b ∈ w.molAtoms m
    · simp [hm a ha b hb hba]
    · rw [h1, h2 b hb]
  · simp [hba]

theorem rigidOld_eq (ok : w.OK lengths bravais cutoff) {s : Sys} {m : ℕ}
    (h : At w lengths cutoff s.cells s.pos) (hm : FullyMasked w m) :
    rigidOld w (w.molAtoms m) s = .ok (((w.molAtoms m).map (rigidE w s.pos s.typ)).sum) := by
  have key : ∀ (l : List ℕ) (x : ℝ), (∀ a ∈ l, a ∈ w.molAtoms m) → loop (fun e a => do
      let x ← rigidAtom w s a
      Out.ok (e + x)) l x = .ok (x + (l.map (rigidE w s.pos s.typ)).sum) := by
    intro l
    induction l with
    | nil => intro x _; simp
    | cons a l ih =>
      intro x hl
      have ha := hl a (List.mem_cons_self ..)
      simp only [loop_cons, rigidAtom_eq ok h hm ha (h.unit (ok.molMem m a ha).1) (fun _ _ => rfl),
        ok_bind]
      rw [ih _ fun b hb => hl b (List.mem_cons_of_mem _ hb)]
      simp [add_assoc]
  unfold rigidOld
  rw [key _ _ fun a ha => ha, zero_add]

theorem rigidNew_sum (ok : w.OK lengths bravais cutoff) {q : ℕ → Vec} {m : ℕ} (dr : Vec)
    (hm : FullyMasked w m) (l : List ℕ) (hl : l.Nodup) (hlm : ∀ a ∈ l, a ∈ w.molAtoms m)
    (s : Sys) (x : ℝ) (h : At w lengths cutoff s.cells q)
    (hq : ∀ b, b ∉ w.molAtoms m → q b = s.pos b)
    (hr : ∀ a ∈ l, InUnit (w.gen (w.shift (s.pos a + dr)))) :
    loop (rigidStep w dr) l (s, x) = .ok ({ s with pos := displaced w l dr s.pos },
      x + (l.map (rigidE w (displaced w l dr s.pos) s.typ)).sum) := by
  induction l generalizing s x with
  | nil =>
    have : displaced w [] dr s.pos = s.pos := by funext b; simp [displaced]
    simp only [this, loop_nil, List.map_nil, List.sum_nil, add_zero]
  | cons a l ih =>
    rw [List.nodup_cons] at hl
    have ha := hlm a (List.mem_cons_self ..)
    have hq' : ∀ b, b ∉ w.molAtoms m →
        q b = Function.update s.pos a (w.shift (s.pos a + dr)) b := by
      intro b hb
      have : b ≠ a := by rintro rfl; exact hb ha
      rw [Function.update_of_ne this]; exact hq b hb
    have he := rigidAtom_eq ok (s := s.setPos a (w.shift (s.pos a + dr))) (a := a) h hm ha (by
      simp only [Function.update_self]
      exact hr a (List.mem_cons_self ..)) hq'
    have he' := ih hl.2 (fun b hb => hlm b (List.mem_cons_of_mem _ hb))
      (s.setPos a (w.shift (s.pos a + dr)))
      (x + rigidE w (s.setPos a (w.shift (s.pos a + dr))).pos s.typ a) h hq' (by
      intro b hb
      have hba : b ≠ a := by rintro rfl; exact hl.1 hb
      simp only [Function.update_of_ne hba]
      exact hr b (List.mem_cons_of_mem _ hb))
    rw [loop_cons]
    have hst : rigidStep w dr (s, x) a = .ok (s.setPos a (w.shift (s.pos a + dr)),
        x + rigidE w (s.setPos a (w.shift (s.pos a + dr))).pos s.typ a) := by
      unfold rigidStep
      simp only [he, ok_bind]
    rw [hst, ok_bind, he']
    simp only [displaced_cons w a l dr s.pos hl.1, List.map_cons, List.sum_cons]
    congr 2
    rw [add_assoc]
    congr 2
    refine rigidE_congr s.typ hm ha ?_ ?_
    · simp [displaced]
    · intro b hb
      have hba : b ≠ a := by rintro rfl; exact hb ha
      have hbl : b ∉ l := fun h => hb (hlm b (List.mem_cons_of_mem _ h))
      simp [displaced, hba, hbl]

/-- Pairs counted by the rigid move, if no pair within the molecule counts. -/
theorem rigid_pairs (m : ℕ) (p : ℕ → Vec) (t : ℕ → ℕ)
    (hm : FullyMasked w m) : ∑ a ∈ (w.molAtoms m).toFinset, atomPairE w p t a = molPairE w p t m := by
  unfold atomPairE molPairE
  refine Finset.sum_congr rfl fun a ha => Finset.sum_congr rfl fun b _ => ?_
  by_cases hba : b ≠ a
  · by_cases hb : b ∈ w.molAtoms m
    · have : pairE w p t a b = 0 := by
        unfold pairE
        rw [hm a (List.mem_toFinset.1 ha) b hb hba]
        simp
      simp [this]
    · simp [hba, hb]
  · simp [hba]

/-- **C40 (rigid displacement, acceptance).**  If all pairs within the molecule
are masked and the displacement changes neither the bonded energies nor those of
links, the move is accepted according to the change of the total energy. -/
theorem C40_rigid_accepts (ok : w.OK lengths bravais cutoff) {s : Sys}
    (h : At w lengths cutoff s.cells s.pos) (m : ℕ) (dr : Vec) (v : ℝ)
    (hu : ∀ a ∈ w.molAtoms m, InUnit (w.gen (w.shift (s.pos a + dr))))
    (hf : FitsBoth w (grid lengths cutoff) s.pos (displaced w (w.molAtoms m) dr s.pos))
    (hm : FullyMasked w m)
    (hb : (w.bonded.map fun x => x.energy (displaced w (w.molAtoms m) dr s.pos)).sum =
      (w.bonded.map fun x => x.energy s.pos).sum)
    (hl : (w.links.map fun x => x.energy (displaced w (w.molAtoms m) dr s.pos)).sum =
      (w.links.map fun x => x.energy s.pos).sum) :
    ∃ c, At w lengths cutoff c (displaced w (w.molAtoms m) dr s.pos) ∧
      rigidDisplace w m dr v s = .ok
        (if Accepts w s.pos (displaced w (w.molAtoms m) dr s.pos) s.typ s.typ v = true
          then ({ s with pos := displaced w (w.molAtoms m) dr s.pos, cells := c,
                         nAttempt := s.nAttempt + 1, nAccept := s.nAccept + 1 }, true)
          else ({ s with nAttempt := s.nAttempt + 1 }, false)) := by
  set p' := displaced w (w.molAtoms m) dr s.pos with hp'
  have hmem : ∀ a ∈ w.molAtoms m, a ∈ w.atoms := fun a ha => (ok.molMem m a ha).1
  have hout : ∀ b, b ∉ w.molAtoms m → s.pos b = p' b := fun b hb => by
    simp only [hp', displaced, hb, if_false]
  have h1 := rigidOld_eq ok (s := s.attempt) (m := m) h hm
  have h2 := rigidNew_sum ok dr hm (w.molAtoms m) (ok.molNodup m) (fun _ ha => ha) s.attempt 0
    (q := s.pos) h (fun _ _ => rfl) hu
  obtain ⟨c, h3, h4⟩ := updateCells_ok (l := w.molAtoms m)
    (s := { s.attempt with pos := p' }) (q := s.pos) h hmem (by
      intro a ha
      simp only [hp', displaced, ha, if_true]
      exact hu a ha) hf
  have hdiff : (0 + ((w.molAtoms m).map (rigidE w p' s.typ)).sum) -
      ((w.molAtoms m).map (rigidE w s.pos s.typ)).sum = energy w p' s.typ - energy w s.pos s.typ := by
    have e1 := molPairE_diff ok m s.pos p' s.typ s.typ hout fun _ _ => rfl
    have e2 := sum_diff_mol ok m (fun a => w.ext (s.pos a) (s.typ a)) (fun a => w.ext (p' a) (s.typ a))
      fun b hb => by simp only [hout b hb]
    have e3 := sum_diff_mol ok m (fun a => w.tether a (s.pos a)) (fun a => w.tether a (p' a))
      fun b hb => by simp only [hout b hb]
    rw [← rigid_pairs m p' s.typ hm, ← rigid_pairs m s.pos s.typ hm] at e1
    rw [← List.sum_toFinset _ (ok.molNodup m), ← List.sum_toFinset _ (ok.molNodup m)]
    unfold rigidE
    simp only [Finset.sum_add_distrib]
    unfold energy
    unfold pairsE at e1
    linarith
  refine ⟨c, ?_, ?_⟩
  · refine h4.congr fun a _ => ?_
    simp only [mixed, hp', displaced]
    by_cases ha : a ∈ w.molAtoms m <;> simp [ha]
  · unfold rigidDisplace
    rw [← rigidNew_eq] at h2
    simp only [h1, h2, ok_bind]
    have hacc : metropolis (boltzmann w ((0 + ((w.molAtoms m).map (rigidE w p' s.typ)).sum) -
      ((w.molAtoms m).map (rigidE w s.pos s.typ)).sum)) v = Accepts w s.pos p' s.typ s.typ v := by
      rw [hdiff]; rfl
    rw [← hp', hacc]
    cases Accepts w s.pos p' s.typ s.typ v
    · simp only [finishRigid, restore_eq, Bool.false_eq_true, if_false]
      congr 2
      have : (fun a => if a ∈ w.molAtoms m then s.pos a else p' a) = s.pos := by
        funext a
        simp only [hp', displaced]
        split <;> rfl
      rw [this]
    · simp only [finishRigid, h3, ok_bind, if_true]

/-! ### Swap of chain ends -/

theorem half_pairs (S : Finset ℕ) (F : ℕ → ℕ → ℝ) (hF : ∀ a b, F a b = F b a) :
    2 * (∑ a ∈ S, ∑ b ∈ S, if a < b then F a b else 0) =
      ∑ a ∈ S, ∑ b ∈ S, if a ≠ b then F a b else 0 := by
  have h1 : (∑ a ∈ S, ∑ b ∈ S, if a < b then F a b else 0) =
      ∑ a ∈ S, ∑ b ∈ S, if b < a then F a b else 0 := by
    rw [Finset.sum_comm]
    exact Finset.sum_congr rfl fun a _ => Finset.sum_congr rfl fun b _ => by rw [hF b a]
  rw [two_mul]
  nth_rewrite 2 [h1]
  simp only [← Finset.sum_add_distrib]
  refine Finset.sum_congr rfl fun a _ => Finset.sum_congr rfl fun b _ => ?_
  rcases lt_trichotomy a b with hab | rfl | hab
  · have : ¬ b < a := by omega
    have h : a ≠ b := by omega
    simp [hab, this, h]
  · simp
  · have : ¬ a < b := by omega
    have h : a ≠ b := by omega
    simp [hab, this, h]

theorem flip_atoms (ok : w.OK lengths bravais cutoff) (m : ℕ) {a : ℕ} (ha : a ∈ w.atoms) :
    flip (w.molAtoms m) a ∈ w.atoms := by
  by_cases h : a ∈ w.molAtoms m
  · exact (ok.molMem m _ (flip_mem (ok.molNodup m) h)).1
  · rwa [flip_not_mem h]

theorem sum_flip (ok : w.OK lengths bravais cutoff) (m : ℕ) (f : ℕ → ℝ) :
    ∑ a ∈ w.atoms, f (flip (w.molAtoms m) a) = ∑ a ∈ w.atoms, f a :=
  Finset.sum_bij (fun a _ => flip (w.molAtoms m) a) (fun a ha => flip_atoms ok m ha)
    (fun a _ b _ h => by
      have := congrArg (flip (w.molAtoms m)) h
      rwa [flip_flip (ok.molNodup m), flip_flip (ok.molNodup m)] at this)
    (fun a ha => ⟨flip (w.molAtoms m) a, flip_atoms ok m ha, flip_flip (ok.molNodup m) a⟩)
    (fun _ _ => rfl)

/-- The chain looks the same from both ends as far as masks are concerned. -/
def MaskSymmetric (w : World) (m : ℕ) : Prop :=
  ∀ a b, w.masked (flip (w.molAtoms m) a) (flip (w.molAtoms m) b) = w.masked a b

/-- Exchanging the positions has the same energy as exchanging the types. -/
theorem pairsE_flip (ok : w.OK lengths bravais cutoff) (m : ℕ) (hm : MaskSymmetric w m)
    (p : ℕ → Vec) (t : ℕ → ℕ) :
    pairsE w (p ∘ flip (w.molAtoms m)) t = pairsE w p (t ∘ flip (w.molAtoms m)) := by
  have hff := flip_flip (ok.molNodup m)
  have e : ∀ a b, pairE w (p ∘ flip (w.molAtoms m)) t a b =
      pairE w p (t ∘ flip (w.molAtoms m)) (flip (w.molAtoms m) a) (flip (w.molAtoms m) b) := by
    intro a b
    unfold pairE
    simp only [Function.comp, hff, hm a b]
  have h1 := half_pairs w.atoms _ (pairE_symm ok (p ∘ flip (w.molAtoms m)) t)
  have h2 := half_pairs w.atoms _ (pairE_symm ok p (t ∘ flip (w.molAtoms m)))
  have h3 : (∑ a ∈ w.atoms, ∑ b ∈ w.atoms,
      if a ≠ b then pairE w (p ∘ flip (w.molAtoms m)) t a b else 0) =
      ∑ a ∈ w.atoms, ∑ b ∈ w.atoms,
      if a ≠ b then pairE w p (t ∘ flip (w.molAtoms m)) a b else 0 := by
    rw [← sum_flip ok m fun a => ∑ b ∈ w.atoms,
      if a ≠ b then pairE w p (t ∘ flip (w.molAtoms m)) a b else 0]
    refine Finset.sum_congr rfl fun a _ => ?_
    rw [← sum_flip ok m fun b => if flip (w.molAtoms m) a ≠ b then
      pairE w p (t ∘ flip (w.molAtoms m)) (flip (w.molAtoms m) a) b else 0]
    refine Finset.sum_congr rfl fun b _ => ?_
    rw [e a b]
    refine if_congr (not_congr ⟨fun h => by rw [h], fun h => ?_⟩) rfl rfl
    rw [← hff a, h, hff]
  unfold pairsE
  linarith

/-- Bonds, links and tethers have the same energy in both orientations: for a
linear chain with one type of bond, without tethers and links. -/
def TermsSymmetric (w : World) (p : ℕ → Vec) (m : ℕ) : Prop :=
  (w.bonded.map fun x => x.energy (p ∘ flip (w.molAtoms m))).sum
      + (w.links.map fun x => x.energy (p ∘ flip (w.molAtoms m))).sum
      + ∑ a ∈ w.atoms, w.tether a (p (flip (w.molAtoms m) a)) =
    (w.bonded.map fun x => x.energy p).sum + (w.links.map fun x => x.energy p).sum
      + ∑ a ∈ w.atoms, w.tether a (p a)

/-- **C40 (swap of ends, acceptance).** -/
theorem C40_swap_accepts (ok : w.OK lengths bravais cutoff) {s : Sys}
    (h : At w lengths cutoff s.cells s.pos) (m : ℕ) (v : ℝ)
    (hf : FitsBoth w (grid lengths cutoff) s.pos (s.pos ∘ flip (w.molAtoms m)))
    (hm : MaskSymmetric w m) (ht : TermsSymmetric w s.pos m) :
    ∃ c, At w lengths cutoff c (s.pos ∘ flip (w.molAtoms m)) ∧
      endSwap w m ((w.molAtoms m).map s.typ) v s = .ok
        (if Accepts w s.pos (s.pos ∘ flip (w.molAtoms m)) s.typ s.typ v = true
          then ({ s with pos := s.pos ∘ flip (w.molAtoms m), cells := c,
                         nAttempt := s.nAttempt + 1, nAccept := s.nAccept + 1 }, true)
          else ({ s with nAttempt := s.nAttempt + 1 }, false)) := by
  obtain ⟨c, h1, h2⟩ := endSwap_eq ok h m v hf
  refine ⟨c, h1, ?_⟩
  rw [h2]
  have hdiff : molE w s.pos (s.typ ∘ flip (w.molAtoms m)) m - molE w s.pos s.typ m =
      energy w (s.pos ∘ flip (w.molAtoms m)) s.typ - energy w s.pos s.typ := by
    have e1 := molPairE_diff ok m s.pos s.pos s.typ (s.typ ∘ flip (w.molAtoms m)) (fun _ _ => rfl)
      fun b hb => by simp only [Function.comp, flip_not_mem hb]
    rw [← pairsE_flip ok m hm] at e1
    have e2 := sum_diff_mol ok m (fun a => w.ext (s.pos a) (s.typ a))
      (fun a => w.ext (s.pos a) (s.typ (flip (w.molAtoms m) a)))
      fun b hb => by simp only [flip_not_mem hb]
    have e3 := sum_flip ok m fun a => w.ext (s.pos a) (s.typ (flip (w.molAtoms m) a))
    simp only [flip_flip (ok.molNodup m)] at e3
    unfold TermsSymmetric at ht
    unfold molE energy
    unfold pairsE at e1
    simp only [Function.comp] at ht e1 ⊢
    linarith
  rw [hdiff]
  rfl

/-! ### Semigrand move -/

/-- **C40 (semigrand, acceptance).**  Without dependence of the external energy
on the type, the ratio is that of the Boltzmann weights multiplied by the ratio
of the weights of the states. -/
theorem C40_semigrand_ratio (ok : w.OK lengths bravais cutoff) (s : Sys) (m : ℕ) (c : Fin 2)
    (hx : ∀ r t t', w.ext r t = w.ext r t') :
    sgRatio w s m c = Real.exp (-w.beta * (energy w s.pos (typesOf w m (toggle (some c)) s.typ)
      - energy w s.pos s.typ)) * w.weight (toggle (some c)) / w.weight c := by
  have e1 := molPairE_diff ok m s.pos s.pos s.typ (typesOf w m (toggle (some c)) s.typ)
    (fun _ _ => rfl) fun b hb => by simp only [typesOf, hb, if_false]
  have e2 : ∑ a ∈ w.atoms, w.ext (s.pos a) (typesOf w m (toggle (some c)) s.typ a) =
      ∑ a ∈ w.atoms, w.ext (s.pos a) (s.typ a) :=
    Finset.sum_congr rfl fun a _ => hx _ _ _
  unfold sgRatio
  have : energy w s.pos (typesOf w m (toggle (some c)) s.typ) - energy w s.pos s.typ =
      molPairE w s.pos (typesOf w m (toggle (some c)) s.typ) m - molPairE w s.pos s.typ m := by
    unfold energy
    unfold pairsE at e1
    linarith
  rw [this]

end Verif.McMoves
