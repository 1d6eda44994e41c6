/-
Energy difference computed by `McMuExchange` (C78).
-/
import Verif.FreeEnergy.Model

set_option autoImplicit false

namespace Verif.FreeEnergy

/-- `McMuExchange` may be used for the molecule `m` with first atom `a0`: its atoms follow each other
in memory; their types are those of the species; masks, distances and energies are symmetric; lists
of neighbours name atoms once, and any other atom is beyond the cutoff. -/
structure Fits (x : System) (p : Exchange) (atoms : Finset ℕ) (m a0 : ℕ) : Prop where
  mol : ∀ a ∈ atoms, x.mol a = m ↔ a0 ≤ a ∧ a < a0 + p.nAtom
  mem : ∀ i < p.nAtom, a0 + i ∈ atoms
  type : ∀ i < p.nAtom, x.type (a0 + i) = p.old i
  mask : ∀ a b, x.masked a b ↔ x.masked b a
  rsq : ∀ a b, x.rsq a b = x.rsq b a
  energy : ∀ r t u, x.energy r t u = x.energy r u t
  nodup : ∀ a ∈ atoms, (x.neighbors a).Nodup
  sub : ∀ a ∈ atoms, ∀ b ∈ x.neighbors a, b ∈ atoms
  far : ∀ a ∈ atoms, ∀ b ∈ atoms, b ∉ x.neighbors a → ∀ t u, x.energy (x.rsq a b) t u = 0

open Classical in
/-- Energy of pairs that are not masked if atoms have the given types. -/
noncomputable def pairEnergy (x : System) (atoms : Finset ℕ) (type : ℕ → ℕ) : ℝ :=
  ∑ a ∈ atoms, ∑ b ∈ atoms.filter (fun b => a < b ∧ ¬ x.masked a b),
    x.energy (x.rsq a b) (type a) (type b)

/-- Types after the exchange of the molecule with first atom `a0`. -/
def exchanged (x : System) (p : Exchange) (a0 : ℕ) (a : ℕ) : ℕ :=
  if a0 ≤ a ∧ a < a0 + p.nAtom then p.new (a - a0) else x.type a

open Classical in
/-- Change of the energy of a pair. -/
noncomputable def change (x : System) (p : Exchange) (a0 a b : ℕ) : ℝ :=
  if x.masked a b then 0 else
    x.energy (x.rsq a b) (exchanged x p a0 a) (exchanged x p a0 b) -
      x.energy (x.rsq a b) (x.type a) (x.type b)

theorem foldl_sub (f : ℕ → ℝ) (g : ℝ → ℕ → ℝ) (l : List ℕ) (e : ℝ)
    (h : ∀ e, ∀ a ∈ l, g e a = e + f a) : l.foldl g e = e + (l.map f).sum := by
  induction l generalizing e with
  | nil => simp
  | cons a l ih =>
    rw [List.foldl_cons, h e a (by simp), ih _ (fun e b hb => h e b (List.mem_cons_of_mem _ hb))]
    simp only [List.map_cons, List.sum_cons]
    ring

/-- The places of flipped atoms. -/
def isFlip (p : Exchange) (a0 a : ℕ) : Prop := a0 ≤ a ∧ a < a0 + p.nAtom ∧ p.flipped (a - a0)

instance (p : Exchange) (a0 a : ℕ) : Decidable (isFlip p a0 a) := by
  unfold isFlip; infer_instance

variable {x : System} {p : Exchange} {atoms : Finset ℕ} {m a0 : ℕ}

theorem exchanged_of_not_flip (h : Fits x p atoms m a0) {a : ℕ} (hf : ¬ isFlip p a0 a) :
    exchanged x p a0 a = x.type a := by
  unfold exchanged
  split_ifs with hc
  · have : p.new (a - a0) = p.old (a - a0) := by
      by_contra hn
      exact hf ⟨hc.1, hc.2, hn⟩
    rw [this, ← h.type (a - a0) (by omega)]
    congr 1; omega
  · rfl

theorem change_symm (h : Fits x p atoms m a0) (a b : ℕ) :
    change x p a0 a b = change x p a0 b a := by
  unfold change
  by_cases hm : x.masked a b
  · rw [if_pos hm, if_pos ((h.mask a b).1 hm)]
  · rw [if_neg hm, if_neg (fun hn => hm ((h.mask a b).2 hn)), h.rsq a b, h.energy _ (x.type a),
      h.energy _ (exchanged x p a0 a)]

theorem change_zero (h : Fits x p atoms m a0) {a b : ℕ} (ha : ¬ isFlip p a0 a)
    (hb : ¬ isFlip p a0 b) : change x p a0 a b = 0 := by
  unfold change
  rw [exchanged_of_not_flip h ha, exchanged_of_not_flip h hb]
  simp

/-- What one pass of the loop over neighbours adds. -/
noncomputable def gain (x : System) (p : Exchange) (a0 a b : ℕ) : ℝ :=
  if b ≠ a ∧ (¬ isFlip p a0 b ∨ a < b) then change x p a0 a b else 0

theorem neighborPass_eq (h : Fits x p atoms m a0) {i1 : ℕ} (hi : i1 < p.nAtom) (e : ℝ) {b : ℕ}
    (hb : b ∈ atoms) :
    neighborPass x p a0 i1 e b = e + gain x p a0 (a0 + i1) b := by
  have hm1 : x.mol (a0 + i1) = m := (h.mol _ (h.mem i1 hi)).2 ⟨by omega, by omega⟩
  have he1 : exchanged x p a0 (a0 + i1) = p.new i1 := by
    unfold exchanged
    rw [if_pos ⟨by omega, by omega⟩]
    congr 1; omega
  unfold neighborPass gain change
  dsimp only
  by_cases h1 : b = a0 + i1
  · rw [if_neg (not_not.2 h1), if_neg (fun hc => hc.1 h1)]; ring
  rw [if_pos h1]
  by_cases hk : x.masked (a0 + i1) b
  · rw [if_neg (not_not.2 hk), if_pos hk]; simp
  rw [if_pos hk, if_neg hk, he1]
  by_cases hm : x.mol (a0 + i1) = x.mol b
  · have hb' := (h.mol b hb).1 (hm ▸ hm1)
    have he2 : exchanged x p a0 b = p.new (b - a0) := by
      unfold exchanged; rw [if_pos hb']
    rw [if_neg (not_not.2 hm), he2]
    by_cases hlt : b > a0 + i1
    · rw [if_pos hlt, if_pos ⟨h1, Or.inr hlt⟩]; ring
    · rw [if_neg hlt]
      by_cases hf : p.flipped (b - a0)
      · rw [if_neg (not_not.2 hf), if_neg]
        · ring
        · rintro ⟨-, hc | hc⟩
          · exact hc ⟨hb'.1, hb'.2, hf⟩
          · exact hlt hc
      · rw [if_pos hf, if_pos ⟨h1, Or.inl (fun hc => hf hc.2.2)⟩]; ring
  · have hb' : ¬ (a0 ≤ b ∧ b < a0 + p.nAtom) := fun hc => hm (hm1.trans ((h.mol b hb).2 hc).symm)
    have hnf : ¬ isFlip p a0 b := fun hc => hb' ⟨hc.1, hc.2.1⟩
    rw [if_pos hm, if_pos ⟨h1, Or.inl hnf⟩, exchanged_of_not_flip h hnf]; ring

theorem gain_far (h : Fits x p atoms m a0) {a b : ℕ} (ha : a ∈ atoms) (hb : b ∈ atoms)
    (hn : b ∉ x.neighbors a) : gain x p a0 a b = 0 := by
  unfold gain change
  split_ifs
  · rfl
  · rw [h.far a ha b hb hn, h.far a ha b hb hn]; ring
  · rfl

/-- The loops add the gains of flipped atoms with all atoms. -/
theorem deltaE_gain (h : Fits x p atoms m a0) :
    deltaE x p a0 = ∑ a ∈ atoms.filter (fun a => isFlip p a0 a), ∑ b ∈ atoms, gain x p a0 a b := by
  classical
  unfold deltaE
  rw [foldl_sub (fun i => ∑ b ∈ atoms, gain x p a0 (a0 + i) b), zero_add]
  · have hnd : (p.flipIds).Nodup := List.Nodup.filter _ List.nodup_range
    rw [← List.sum_toFinset _ hnd]
    refine Finset.sum_bij (fun i _ => a0 + i) ?_ ?_ ?_ (fun _ _ => rfl)
    · intro i hi
      rw [List.mem_toFinset, Exchange.flipIds, List.mem_filter, List.mem_range] at hi
      rw [Finset.mem_filter]
      refine ⟨h.mem i hi.1, by omega, by omega, ?_⟩
      have : a0 + i - a0 = i := by omega
      rw [this]; exact of_decide_eq_true hi.2
    · intro i _ j _ hij
      exact Nat.add_left_cancel hij
    · intro a ha
      rw [Finset.mem_filter] at ha
      obtain ⟨h1, h2, h3, h4⟩ := ha
      refine ⟨a - a0, ?_, by omega⟩
      rw [List.mem_toFinset, Exchange.flipIds, List.mem_filter, List.mem_range]
      exact ⟨by omega, decide_eq_true h4⟩
  · intro e i hi
    rw [Exchange.flipIds, List.mem_filter, List.mem_range] at hi
    have ha := h.mem i hi.1
    rw [foldl_sub (fun b => gain x p a0 (a0 + i) b) _ _ _
      (fun e b hb => neighborPass_eq h hi.1 e (h.sub _ ha b hb)),
      ← List.sum_toFinset _ (h.nodup _ ha)]
    congr 1
    apply Finset.sum_subset
    · intro b hb
      exact h.sub _ ha b (List.mem_toFinset.1 hb)
    · intro b hb hn
      exact gain_far h ha hb (fun hc => hn (List.mem_toFinset.2 hc))

open Classical in
theorem pairEnergy_change (x : System) (p : Exchange) (atoms : Finset ℕ) (a0 : ℕ) :
    pairEnergy x atoms (exchanged x p a0) - pairEnergy x atoms x.type =
      ∑ a ∈ atoms, ∑ b ∈ atoms, if a < b then change x p a0 a b else 0 := by
  unfold pairEnergy
  rw [← Finset.sum_sub_distrib]
  refine Finset.sum_congr rfl fun a _ => ?_
  rw [← Finset.sum_sub_distrib, Finset.sum_filter]
  refine Finset.sum_congr rfl fun b _ => ?_
  unfold change
  by_cases h1 : a < b <;> by_cases h2 : x.masked a b <;> simp [h1, h2]

/-- Each pair with a flipped atom is counted once. -/
theorem pairs_once (f : ℕ → ℕ → ℝ) (F : ℕ → Prop) [DecidablePred F] (atoms : Finset ℕ)
    (hs : ∀ a b, f a b = f b a) (h0 : ∀ a b, ¬ F a → ¬ F b → f a b = 0) :
    ∑ a ∈ atoms, ∑ b ∈ atoms, (if a < b then f a b else 0) =
      ∑ a ∈ atoms.filter F, ∑ b ∈ atoms, (if b ≠ a ∧ (¬ F b ∨ a < b) then f a b else 0) := by
  rw [Finset.sum_filter]
  have e1 : ∀ a b, (if a < b then f a b else 0) =
      (if F a then (if a < b then f a b else 0) else 0) +
      (if F b then (if ¬ F a ∧ a < b then f b a else 0) else 0) := by
    intro a b
    by_cases ha : F a <;> by_cases hb : F b <;> by_cases hl : a < b <;> simp [ha, hb, hl, hs a b, h0 b a]
  rw [Finset.sum_congr rfl fun a _ => Finset.sum_congr rfl fun b _ => e1 a b]
  simp only [Finset.sum_add_distrib]
  conv_lhs => rhs; rw [Finset.sum_comm]
  rw [← Finset.sum_add_distrib]
  refine Finset.sum_congr rfl fun a _ => ?_
  by_cases ha : F a
  · simp only [ha, if_true]
    rw [← Finset.sum_add_distrib]
    refine Finset.sum_congr rfl fun b _ => ?_
    rcases lt_trichotomy a b with hl | hl | hl
    · simp [hl, hl.ne', not_lt.2 hl.le]
    · subst hl; simp
    · by_cases hb : F b <;> simp [hl, hl.ne, hb, not_lt.2 hl.le]
  · simp [ha]

/-- C78: the energy difference of `McMuExchange` is the change of the energy of all pairs. -/
theorem C78_exchange (x : System) (p : Exchange) (atoms : Finset ℕ) (m a0 : ℕ)
    (h : Fits x p atoms m a0) :
    deltaE x p a0 = pairEnergy x atoms (exchanged x p a0) - pairEnergy x atoms x.type := by
  rw [deltaE_gain h, pairEnergy_change, pairs_once _ (fun a => isFlip p a0 a) atoms (change_symm h)
    (fun a b ha hb => change_zero h ha hb)]
  rfl

/-- C78: the samples are Boltzmann factors of these changes, one per molecule. -/
theorem C78_exchange_samples (x : System) (p : Exchange) (atoms : Finset ℕ) (beta : ℝ)
    (firsts : List ℕ) (mol : ℕ → ℕ) (h : ∀ a0 ∈ firsts, Fits x p atoms (mol a0) a0) :
    exchangeSamples x p beta firsts = firsts.map (fun a0 =>
      Real.exp (-beta * (pairEnergy x atoms (exchanged x p a0) - pairEnergy x atoms x.type))) := by
  unfold exchangeSamples
  refine List.map_congr_left fun a0 ha => ?_
  rw [C78_exchange x p atoms _ a0 (h a0 ha)]

end Verif.FreeEnergy
