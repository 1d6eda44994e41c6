/-
C83: structure factors.
-/
import Verif.Scatter.Model
import Mathlib.Tactic.Linarith
import Mathlib.Tactic.Ring
import Mathlib.Tactic.FieldSimp
import Mathlib.Algebra.BigOperators.Field
import Mathlib.Algebra.BigOperators.Group.List.Basic

set_option autoImplicit false

namespace Verif.Scatter

open Verif.Cpp
open Verif.Cpp.Out

/-! ### Sums -/

theorem foldl_add_eq {α : Type} (f : α → ℂ) (l : List α) :
    ∀ z, l.foldl (fun z a => z + f a) z = z + (l.map f).sum := by
  induction l with
  | nil => intro z; simp
  | cons a l ih => intro z; rw [List.foldl_cons, ih, List.map_cons, List.sum_cons]; ring

/-- The mode is the sum over atoms. -/
theorem fourier_eq (recip : Fin 3 → V3) (coeff : ℕ → ℝ) (n : Fin 3 → ℤ) (atoms : List Atom) :
    fourier recip coeff n atoms
      = (atoms.map fun a => (coeff a.typ : ℂ) * phase (waveVector recip n) a.pos).sum := by
  unfold fourier
  rw [foldl_add_eq (fun a : Atom => (coeff a.typ : ℂ) * phase (waveVector recip n) a.pos), zero_add]

theorem waveVector_apply (recip : Fin 3 → V3) (n : Fin 3 → ℤ) (k : Fin 3) :
    waveVector recip n k = (n 0 : ℝ) * recip 0 k + (n 1 : ℝ) * recip 1 k + (n 2 : ℝ) * recip 2 k := by
  have h : List.finRange 3 = [0, 1, 2] := by decide
  simp [waveVector, h]

/-- **C83 (wave vectors).**  A wave vector is the integer combination of the reciprocal basis. -/
theorem C83_waveVector (recip : Fin 3 → V3) (n : Fin 3 → ℤ) :
    waveVector recip n = ∑ j, (n j : ℝ) • recip j := by
  funext k
  rw [waveVector_apply, Fin.sum_univ_three]
  simp

/-- **C83 (order of atoms).**  The mode does not depend on the order in which atoms are visited. -/
theorem C83_order (recip : Fin 3 → V3) (coeff : ℕ → ℝ) (n : Fin 3 → ℤ) {l l' : List Atom}
    (h : l.Perm l') : fourier recip coeff n l = fourier recip coeff n l' := by
  rw [fourier_eq, fourier_eq]
  exact (h.map _).sum_eq

theorem fourier_append (recip : Fin 3 → V3) (coeff : ℕ → ℝ) (n : Fin 3 → ℤ) (l l' : List Atom) :
    fourier recip coeff n (l ++ l') = fourier recip coeff n l + fourier recip coeff n l' := by
  simp [fourier_eq]

/-- **C83 (processors).**  However the atoms are distributed over processors, the mode of the master is
that of all atoms. -/
theorem C83_ranks (recip : Fin 3 → V3) (coeff : ℕ → ℝ) (n : Fin 3 → ℤ) (ranks : List (List Atom))
    (atoms : List Atom) (h : ranks.flatten.Perm atoms) :
    totalFourier recip coeff n ranks
      = (atoms.map fun a => (coeff a.typ : ℂ) * phase (waveVector recip n) a.pos).sum := by
  have h1 : totalFourier recip coeff n ranks = fourier recip coeff n ranks.flatten := by
    clear h
    unfold totalFourier
    induction ranks with
    | nil => simp [fourier_eq]
    | cons r rs ih => rw [List.map_cons, List.sum_cons, ih, List.flatten_cons, fourier_append]
  rw [h1, C83_order recip coeff n h, fourier_eq]

/-! ### Symmetries -/

theorem dot_add (a b q : V3) : dot (a + b) q = dot a q + dot b q := by
  simp only [dot, Pi.add_apply]; ring

theorem phase_add (q r t : V3) : phase q (r + t) = phase q r * phase q t := by
  unfold phase
  rw [dot_add, ← Complex.exp_add]
  push_cast
  ring_nf

theorem normSq_phase (q r : V3) : Complex.normSq (phase q r) = 1 := by
  unfold phase
  rw [Complex.normSq_eq_norm_sq, Complex.norm_exp_ofReal_mul_I]
  norm_num

/-- The vector with integer coordinates `m` in the basis `a`. -/
def lattice (a : Fin 3 → V3) (m : Fin 3 → ℤ) : V3 := ∑ k, (m k : ℝ) • a k

theorem dot_lattice (recip a : Fin 3 → V3) (n m : Fin 3 → ℤ)
    (h : ∀ i k, dot (a k) (recip i) = if i = k then 2 * Real.pi else 0) :
    dot (lattice a m) (waveVector recip n)
      = ((n 0 * m 0 + n 1 * m 1 + n 2 * m 2 : ℤ) : ℝ) * (2 * Real.pi) := by
  have e : dot (lattice a m) (waveVector recip n)
      = ∑ i, ∑ k, (n i : ℝ) * m k * dot (a k) (recip i) := by
    simp only [dot, waveVector_apply, lattice, Fin.sum_univ_three, Pi.add_apply, Pi.smul_apply,
      smul_eq_mul]
    ring
  rw [e]
  simp only [h, Fin.sum_univ_three]
  simp
  ring

/-- **C83 (periodic images).**  Replacing atoms by periodic images of themselves changes no mode: the
result does not depend on the cell to which an atom is shifted. -/
theorem C83_periodic (recip a : Fin 3 → V3) (coeff : ℕ → ℝ) (n : Fin 3 → ℤ) (atoms : List Atom)
    (shift : Atom → Fin 3 → ℤ)
    (h : ∀ i k, dot (a k) (recip i) = if i = k then 2 * Real.pi else 0) :
    fourier recip coeff n (atoms.map fun x => ⟨x.pos + lattice a (shift x), x.typ⟩)
      = fourier recip coeff n atoms := by
  rw [fourier_eq, fourier_eq, List.map_map]
  congr 1
  apply List.map_congr_left
  intro x _
  simp only [Function.comp_apply]
  rw [phase_add]
  have e : phase (waveVector recip n) (lattice a (shift x)) = 1 := by
    unfold phase
    rw [dot_lattice recip a n _ h, Complex.exp_eq_one_iff]
    refine ⟨n 0 * shift x 0 + n 1 * shift x 1 + n 2 * shift x 2, ?_⟩
    push_cast
    ring
  rw [e, mul_one]

/-- **C83 (translation).**  Moving all atoms by one vector does not change the squared modulus of a
mode. -/
theorem C83_translate (recip : Fin 3 → V3) (coeff : ℕ → ℝ) (n : Fin 3 → ℤ) (atoms : List Atom) (t : V3) :
    Complex.normSq (fourier recip coeff n (atoms.map fun x => ⟨x.pos + t, x.typ⟩))
      = Complex.normSq (fourier recip coeff n atoms) := by
  have e : fourier recip coeff n (atoms.map fun x => ⟨x.pos + t, x.typ⟩)
      = fourier recip coeff n atoms * phase (waveVector recip n) t := by
    rw [fourier_eq, fourier_eq, List.map_map, ← List.sum_map_mul_right]
    congr 1
    apply List.map_congr_left
    intro x _
    simp only [Function.comp_apply]
    rw [phase_add]
    ring
  rw [e, map_mul, normSq_phase, mul_one]

/-- **C83 (inversion).**  Opposite wave vectors have the same squared modulus. -/
theorem C83_inverse (recip : Fin 3 → V3) (coeff : ℕ → ℝ) (n : Fin 3 → ℤ) (atoms : List Atom) :
    Complex.normSq (fourier recip coeff (fun k => -n k) atoms)
      = Complex.normSq (fourier recip coeff n atoms) := by
  have e : fourier recip coeff (fun k => -n k) atoms = (starRingEnd ℂ) (fourier recip coeff n atoms) := by
    rw [fourier_eq, fourier_eq, map_list_sum, List.map_map]
    congr 1
    apply List.map_congr_left
    intro x _
    simp only [Function.comp_apply, map_mul, Complex.conj_ofReal]
    congr 1
    unfold phase
    rw [← Complex.exp_conj]
    congr 1
    rw [map_mul, Complex.conj_I, Complex.conj_ofReal]
    have : dot x.pos (waveVector recip fun k => -n k) = -dot x.pos (waveVector recip n) := by
      simp only [dot, waveVector_apply]
      push_cast
      ring
    rw [this]
    push_cast
    ring
  rw [e, Complex.normSq_conj]

/-! ### Accumulators -/

theorem inner_apply (v : ℕ → ℝ) (j : ℕ) (i' j' : ℕ) (l : List ℕ) (hl : l.Nodup) :
    ∀ S : ℕ → ℕ → ℝ,
      l.foldl (fun S i => fun i' j' => if i' = i ∧ j' = j then S i j + v i else S i' j') S i' j'
        = S i' j' + if i' ∈ l ∧ j' = j then v i' else 0 := by
  induction l with
  | nil => intro S; simp
  | cons a l ih =>
    intro S
    rw [List.nodup_cons] at hl
    rw [List.foldl_cons, ih hl.2]
    by_cases h : i' = a
    · subst h
      by_cases hj : j' = j
      · subst hj; simp [hl.1]
      · simp [hj]
    · simp [h]

theorem increment_apply (start : ℕ) (p : Pars) (c : Config) (S : ℕ → ℕ → ℝ) (i j : ℕ) :
    increment start p c S i j
      = S i j + if (start ≤ i ∧ i < p.nWave) ∧ j < p.nMode then value p c i j else 0 := by
  unfold increment
  have key : ∀ (l : List ℕ), l.Nodup → ∀ S : ℕ → ℕ → ℝ,
      l.foldl (fun S j => (List.range' start (p.nWave - start)).foldl (fun S i => fun i' j' =>
        if i' = i ∧ j' = j then S i j + value p c i j else S i' j') S) S i j
      = S i j + if (start ≤ i ∧ i < p.nWave) ∧ j ∈ l then value p c i j else 0 := by
    intro l
    induction l with
    | nil => intro _ S; simp
    | cons a l ih =>
      intro hl S
      rw [List.nodup_cons] at hl
      rw [List.foldl_cons, ih hl.2,
        inner_apply (fun i => value p c i a) a i j _ List.nodup_range' S]
      have hm : i ∈ List.range' start (p.nWave - start) ↔ start ≤ i ∧ i < p.nWave := by
        rw [List.mem_range'_1]; omega
      simp only [hm]
      by_cases hja : j = a
      · subst hja; simp [hl.1]
      · simp [hja]
  rw [key _ List.nodup_range S]
  simp

theorem loop_sample (start : ℕ) (p : Pars) (cs : List Config) :
    ∀ (S : ℕ → ℕ → ℝ) (n : ℕ), ∃ S', loop (sample start p) cs ⟨S, some n⟩ = ok ⟨S', some (n + cs.length)⟩
      ∧ ∀ i j, S' i j = S i j
        + if (start ≤ i ∧ i < p.nWave) ∧ j < p.nMode then (cs.map fun c => value p c i j).sum else 0 := by
  induction cs with
  | nil => intro S n; exact ⟨S, by simp [loop_nil], by intro i j; simp⟩
  | cons c cs ih =>
    intro S n
    obtain ⟨S', h1, h2⟩ := ih (increment start p c S) (n + 1)
    refine ⟨S', ?_, ?_⟩
    · rw [loop_cons]
      show (do let n ← count (some n); ok ⟨increment start p c S, n⟩ : Out State).bind _ = _
      have : (do let n ← count (some n); ok ⟨increment start p c S, n⟩ : Out State)
          = ok ⟨increment start p c S, some (n + 1)⟩ := rfl
      rw [this]
      show loop _ cs _ = _
      rw [h1, List.length_cons]
      congr 3
      omega
    · intro i j
      rw [h2, increment_apply]
      split_ifs
      · rw [List.map_cons, List.sum_cons]; ring
      · ring

/-- **C83 (mcMd).**  What is written for a wave and a mode after a run is the mean over the samples of the
run of |ρ|²/V, whatever the state before the run. -/
theorem C83_mc_output (p : Pars) (s : State) (cs : List Config) (i j : ℕ) (hi : i < p.nWave)
    (hj : j < p.nMode) :
    (loop (sample 0 p) cs (clear s)).bind (fun s => output s i j)
      = ok ((cs.map fun c => value p c i j).sum / cs.length) := by
  obtain ⟨S', h1, h2⟩ := loop_sample 0 p cs (fun _ _ => 0) 0
  show Out.bind (loop (sample 0 p) cs ⟨fun _ _ => 0, some 0⟩) _ = _
  rw [h1]
  show output ⟨S', some (0 + cs.length)⟩ i j = _
  simp [output, h2, hi, hj]

/-- **C83 (ddMd).**  The same holds in ddMd for all waves but the first, if `clear` was called before the
run. -/
theorem C83_dd_output (p : Pars) (s : State) (cs : List Config) (i j : ℕ) (h0 : 0 < i) (hi : i < p.nWave)
    (hj : j < p.nMode) :
    (loop (sample 1 p) cs (clear s)).bind (fun s => output s i j)
      = ok ((cs.map fun c => value p c i j).sum / cs.length) := by
  obtain ⟨S', h1, h2⟩ := loop_sample 1 p cs (fun _ _ => 0) 0
  show Out.bind (loop (sample 1 p) cs ⟨fun _ _ => 0, some 0⟩) _ = _
  rw [h1]
  show output ⟨S', some (0 + cs.length)⟩ i j = _
  have h0' : 1 ≤ i := h0
  simp [output, h2, hi, hj, h0']

/-- **C83 (ddMd, first wave).**  The first wave is never accumulated: whatever the samples, what is
written for it is zero. -/
theorem C83_dd_first_violated (p : Pars) (s : State) (cs : List Config) (j : ℕ) :
    (loop (sample 1 p) cs (clear s)).bind (fun s => output s 0 j) = ok 0 := by
  obtain ⟨S', h1, h2⟩ := loop_sample 1 p cs (fun _ _ => 0) 0
  show Out.bind (loop (sample 1 p) cs ⟨fun _ _ => 0, some 0⟩) _ = _
  rw [h1]
  show output ⟨S', some (0 + cs.length)⟩ 0 j = _
  simp [output, h2]

/-- **C83 (ddMd, counter).**  A run that follows `readParameters` without `clear` increments a counter
that nothing has set, at its first sample; a run without samples reads it on output. -/
theorem C83_dd_init_violated (start : ℕ) (p : Pars) (cs : List Config) (i j : ℕ) :
    (loop (sample start p) cs ddRead).bind (fun s => output s i j) = ub := by
  cases cs <;> rfl

/-- **C83 (grid).**  `StructureFactorGrid` does not reset its accumulators: after a second run, what is
written is the mean over the samples of both runs. -/
theorem C83_grid_again (start : ℕ) (p : Pars) (cs cs' : List Config) (i j : ℕ) (h0 : start ≤ i)
    (hi : i < p.nWave) (hj : j < p.nMode) :
    ((loop (sample start p) cs (gridClear gridRead)).bind fun s =>
      (loop (sample start p) cs' (gridClear s)).bind fun s => output s i j)
      = ok (((cs ++ cs').map fun c => value p c i j).sum / ((cs ++ cs').length : ℕ)) := by
  obtain ⟨S', h1, h2⟩ := loop_sample start p cs (fun _ _ => 0) 0
  obtain ⟨S'', h3, h4⟩ := loop_sample start p cs' S' (0 + cs.length)
  show Out.bind (loop (sample start p) cs ⟨fun _ _ => 0, some 0⟩) _ = _
  rw [h1]
  show Out.bind (loop (sample start p) cs' ⟨S', some (0 + cs.length)⟩) _ = _
  rw [h3]
  show output ⟨S'', some (0 + cs.length + cs'.length)⟩ i j = _
  simp [output, h4, h2, hi, hj, h0]

/-! ### Maximum -/

theorem value_nonneg (p : Pars) (c : Config) (h : 0 < c.volume) (i j : ℕ) : 0 ≤ value p c i j :=
  div_nonneg (Complex.normSq_nonneg _) h.le

theorem max_fold (v : ℕ → ℝ) (l : List ℕ) : ∀ m : ℝ × Option ℕ,
    let r := open Classical in l.foldl (fun m i => if v i ≥ m.1 then (v i, some i) else m) m
    m.1 ≤ r.1 ∧ (∀ i ∈ l, v i ≤ r.1) ∧ (r = m ∨ ∃ i ∈ l, r = (v i, some i)) := by
  induction l with
  | nil => intro m; simp
  | cons a l ih =>
    intro m
    simp only [List.foldl_cons]
    by_cases h : v a ≥ m.1
    · rw [if_pos h]
      obtain ⟨h1, h2, h3⟩ := ih (v a, some a)
      refine ⟨le_trans h h1, ?_, ?_⟩
      · intro i hi
        rcases List.mem_cons.1 hi with rfl | hi
        · exact h1
        · exact h2 i hi
      · rcases h3 with h3 | ⟨i, hi, h3⟩
        · exact Or.inr ⟨a, List.mem_cons_self, h3⟩
        · exact Or.inr ⟨i, List.mem_cons_of_mem _ hi, h3⟩
    · rw [if_neg h]
      obtain ⟨h1, h2, h3⟩ := ih m
      refine ⟨h1, ?_, ?_⟩
      · intro i hi
        rcases List.mem_cons.1 hi with rfl | hi
        · exact le_trans (le_of_lt (not_le.1 h)) h1
        · exact h2 i hi
      · rcases h3 with h3 | ⟨i, hi, h3⟩
        · exact Or.inl h3
        · exact Or.inr ⟨i, List.mem_cons_of_mem _ hi, h3⟩

/-- **C83 (maximum).**  The maximum that is written for a mode is at least the value of each wave that is
visited, and is the value of the wave whose index is written with it. -/
theorem C83_maximum (start : ℕ) (p : Pars) (c : Config) (hv : 0 < c.volume) (hw : start < p.nWave) (j : ℕ) :
    (∀ i, start ≤ i → i < p.nWave → value p c i j ≤ (maximum start p c j).1)
    ∧ ∃ i, start ≤ i ∧ i < p.nWave ∧ maximum start p c j = (value p c i j, some i) := by
  have hm : ∀ i, i ∈ List.range' start (p.nWave - start) ↔ start ≤ i ∧ i < p.nWave := by
    intro i; rw [List.mem_range'_1]; omega
  obtain ⟨_, h2, h3⟩ := max_fold (fun i => value p c i j) (List.range' start (p.nWave - start)) (0, none)
  refine ⟨fun i h0 hi => h2 i ((hm i).2 ⟨h0, hi⟩), ?_⟩
  rcases h3 with h3 | ⟨i, hi, h3⟩
  · -- the first wave visited replaces the initial value
    exfalso
    obtain ⟨k, hk⟩ : ∃ k, p.nWave - start = k + 1 := ⟨p.nWave - start - 1, by omega⟩
    rw [hk, List.range'_succ, List.foldl_cons, if_pos (value_nonneg p c hv start j)] at h3
    obtain ⟨_, _, h4⟩ := max_fold (fun i => value p c i j) (List.range' (start + 1) k)
      (value p c start j, some start)
    rcases h4 with h4 | ⟨i, _, h4⟩
    · have := h4.symm.trans h3
      simp at this
    · have := h4.symm.trans h3
      simp at this
  · exact ⟨i, ((hm i).1 hi).1, ((hm i).1 hi).2, h3⟩

/-! ### Partial structure factors -/

/-- **C83 (symmetry).**  A partial structure factor does not depend on the order of the two types. -/
theorem C83_partial_symm (recip : Fin 3 → V3) (V : ℝ) (n : Fin 3 → ℤ) (atoms : List Atom) (t1 t2 : ℤ) :
    partialValue recip V n atoms t1 t2 = partialValue recip V n atoms t2 t1 := by
  simp only [partialValue, Complex.mul_re, Complex.conj_re, Complex.conj_im]
  ring

theorem rho_total (recip : Fin 3 → V3) (n : Fin 3 → ℤ) (nType : ℕ) (atoms : List Atom)
    (h : ∀ a ∈ atoms, a.typ < nType) :
    rho recip n atoms (-1) = ∑ t ∈ Finset.range nType, rho recip n atoms t := by
  have hneg : ¬ ((-1 : ℤ) ≥ 0) := by omega
  have hpos : ∀ t : ℕ, (t : ℤ) ≥ 0 := fun t => by omega
  simp only [rho, if_neg hneg, if_pos (hpos _), fourier_eq]
  induction atoms with
  | nil => simp
  | cons a l ih =>
    simp only [List.map_cons, List.sum_cons, Finset.sum_add_distrib]
    rw [ih fun x hx => h x (List.mem_cons_of_mem _ hx)]
    congr 1
    rw [← Finset.sum_mul]
    congr 1
    have ha : a.typ ∈ Finset.range nType := Finset.mem_range.2 (h a List.mem_cons_self)
    rw [Finset.sum_eq_single a.typ]
    · simp
    · intro b _ hb
      have : ¬ ((a.typ : ℤ) = (b : ℤ)) := fun e => hb (by omega)
      simp [this]
    · exact fun hn => absurd ha hn

/-- **C83 (sum rule).**  The total structure factor (types −1, −1) is the sum of the partial structure
factors over all ordered pairs of types. -/
theorem C83_partial_sum (recip : Fin 3 → V3) (V : ℝ) (n : Fin 3 → ℤ) (nType : ℕ) (atoms : List Atom)
    (h : ∀ a ∈ atoms, a.typ < nType) :
    partialValue recip V n atoms (-1) (-1)
      = ∑ s ∈ Finset.range nType, ∑ t ∈ Finset.range nType, partialValue recip V n atoms s t := by
  unfold partialValue
  rw [rho_total recip n nType atoms h, map_sum, Finset.sum_mul_sum, Complex.re_sum, Finset.sum_div]
  refine Finset.sum_congr rfl fun s _ => ?_
  rw [Complex.re_sum, Finset.sum_div]

/-- **C83 (total).**  The total structure factor is that of `StructureFactor` for coefficients 1. -/
theorem C83_partial_total (recip : Fin 3 → V3) (V : ℝ) (n : Fin 3 → ℤ) (atoms : List Atom) :
    partialValue recip V n atoms (-1) (-1)
      = Complex.normSq (fourier recip (fun _ => 1) n atoms) / V := by
  have hneg : ¬ ((-1 : ℤ) ≥ 0) := by omega
  simp only [partialValue, rho, if_neg hneg]
  rw [mul_comm, Complex.mul_conj, Complex.ofReal_re]

/-! ### Van Hove function -/

/-- **C83 (Van Hove).**  The squared modulus of what is given to the accumulator of a wave, the value at
zero delay, is the structure factor of the configuration. -/
theorem C83_vanHove (p : Pars) (c : Config) (h : 0 < c.volume) (i j : ℕ) :
    Complex.normSq (vanHove c (p.modes j) (p.waves i)) = value p c i j := by
  unfold vanHove value
  rw [map_div₀, Complex.normSq_ofReal, Real.mul_self_sqrt h.le]

end Verif.Scatter
