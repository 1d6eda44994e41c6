/-
Properties C75: what the analyzers of displacements and shapes measure.
-/
import Verif.Analyze.Lemmas

set_option autoImplicit false

namespace Verif.Analyze

open Verif.Boundary

/-! ### Displacements of atoms -/

theorem inCell_shift {b : Ortho} (hb : b.Reach) {r : Vec} (h : NearCell b.lengths r) :
    InCell b.lengths (b.shift r) ∧ ∃ k : IVec, b.shift r = r + latVec b.lengths k := by
  obtain ⟨h1, k, h2⟩ := C23_ortho_shift hb r h
  refine ⟨h1, fun i => -k i, ?_⟩
  funext i
  have e := congrFun h2 i
  simp only [Pi.add_apply, latVec] at e ⊢
  push_cast; linarith

theorem track_old (b : Box) (pos : ℕ → Vec) : ∀ t, (track b pos t).old = b.shift (pos t)
  | 0 => rfl
  | _ + 1 => rfl

/-- The accumulated shifts undo the wrapping. -/
theorem track_shifts {b : Ortho} (hb : b.Reach) {X pos : ℕ → Vec} {n : ℕ → IVec}
    (hpos : ∀ t, NearCell b.lengths (pos t))
    (hn : ∀ t, b.shift (pos t) = X t + latVec b.lengths (n t))
    (hstep : ∀ t i, |X (t + 1) i - X t i| < b.lengths i / 2) :
    ∀ t i, (track (ofOrtho b) pos t).shifts i = n 0 i - n t i
  | 0, i => by show (0 : ℤ) = _; omega
  | t + 1, i => by
    have h := (sep_unique hb (r1 := b.shift (pos (t + 1))) (r2 := b.shift (pos t))
      (D := X (t + 1) - X t) (k := fun i => n (t + 1) i - n t i)
      (withinPeriod_of_inCell (inCell_shift hb (hpos (t + 1))).1 (inCell_shift hb (hpos t)).1)
      (fun i => hstep t i) (by rw [hn, hn, ← latVec_sub]; abel)).2 i
    show (track (ofOrtho b) pos t).shifts i +
      b.translate (b.shift (pos (t + 1))) (track (ofOrtho b) pos t).old i = _
    rw [track_old, track_shifts hb hpos hn hstep t i]
    show _ + b.translate (b.shift (pos (t + 1))) (b.shift (pos t)) i = _
    rw [h]
    ring

theorem exists_images {b : Ortho} (hb : b.Reach) {X pos : ℕ → Vec}
    (hpos : ∀ t, NearCell b.lengths (pos t)) (hsame : ∀ t, SameMod b.lengths (pos t) (X t)) :
    ∃ n : ℕ → IVec, ∀ t, b.shift (pos t) = X t + latVec b.lengths (n t) := by
  have : ∀ t, ∃ n : IVec, b.shift (pos t) = X t + latVec b.lengths n := by
    intro t
    obtain ⟨-, k, hk⟩ := inCell_shift hb (hpos t)
    obtain ⟨l, hl⟩ := hsame t
    exact ⟨fun i => l i + k i, by rw [hk, hl, ← latVec_add]; abel⟩
  choose n hn using this
  exact ⟨n, hn⟩

/-- **C75 (atoms).** In an orthorhombic boundary, if the atom moves less than half a period along
every axis between samples, then the positions that the mean square displacement is computed from
follow the true trajectory: they differ from it by one lattice vector, the same at all times. -/
theorem C75_atom {b : Ortho} (hb : b.Reach) (X pos : ℕ → Vec)
    (hpos : ∀ t, NearCell b.lengths (pos t)) (hsame : ∀ t, SameMod b.lengths (pos t) (X t))
    (hstep : ∀ t i, |X (t + 1) i - X t i| < b.lengths i / 2) :
    ∃ k : IVec, ∀ t, (track (ofOrtho b) pos t).atomPosition (ofOrtho b) =
      X t + latVec b.lengths k := by
  obtain ⟨n, hn⟩ := exists_images hb hpos hsame
  refine ⟨n 0, fun t => ?_⟩
  funext i
  show (track (ofOrtho b) pos t).old i + (track (ofOrtho b) pos t).shifts i * b.lengths i = _
  rw [track_shifts hb hpos hn hstep t i, track_old]
  show b.shift (pos t) i + _ = _
  rw [hn t]
  simp only [Pi.add_apply, latVec]
  push_cast; ring

/-- **C75 (atoms, violated for tilted cells).** In a monoclinic boundary the code multiplies the
shifts by the distances between faces instead of the basis vectors.  An atom that crosses the tilted
face by moving `ε` along the second axis is measured to have moved by the tilt as well. -/
theorem C75_atom_mono_violated {b : Mono} (hb : b.Reach) {r : Vec} {ε : ℝ}
    (h0 : 0 ≤ r 0 ∧ r 0 < b.l 0) (h1 : 0 ≤ r 1 ∧ r 1 < b.l 1)
    (h2 : 0 ≤ r 2 + b.c3 * r 1 ∧ r 2 + b.c3 * r 1 < b.l 2)
    (hc : b.l 1 ≤ r 1 + ε) (hs : ε < b.l 1 / 2)
    (h2' : 0 ≤ r 2 + b.c3 * (r 1 + ε) ∧ r 2 + b.c3 * (r 1 + ε) < b.l 2)
    (hq : |b.c3 * ε| ≤ b.l 2 / 2) :
    let pos : ℕ → Vec := fun t => if t = 0 then r else r + ![0, ε, 0]
    (track (ofMono b) pos 1).atomPosition (ofMono b) -
      (track (ofMono b) pos 0).atomPosition (ofMono b) = ![0, ε, -b.d] := by
  intro pos
  have ok := hb.ok
  have l1 := ok.pos 1
  have hd : b.c3 * b.l 1 = -b.d := by rw [ok.c3]; field_simp
  have s0 : b.shift r = r := by
    have a1 : shift1 (b.minima 0) (b.maxima 0) (b.l 0) (r 0) = (r 0, 0) := by
      rw [ok.minima, ok.maxima]; unfold shift1
      rw [if_neg (show ¬ r 0 ≥ b.l 0 from not_le.2 h0.2), if_neg (show ¬ r 0 < 0 from not_lt.2 h0.1)]
    unfold Mono.shift Mono.shiftI
    rw [a1, ok.minima, ok.maxima, if_neg (show ¬ r 1 ≥ b.l 1 from not_le.2 h1.2),
      if_neg (show ¬ r 1 < 0 from not_lt.2 h1.1)]
    simp only [ok.minima, ok.maxima]
    rw [if_neg (show ¬ r 2 + b.c3 * r 1 ≥ b.l 2 from not_le.2 h2.2),
      if_neg (show ¬ r 2 + b.c3 * r 1 < 0 from not_lt.2 h2.1)]
    funext i; fin_cases i <;> rfl
  have s1 : b.shift (r + ![0, ε, 0]) = ![r 0, r 1 + ε - b.l 1, r 2 - b.d] := by
    have e0 : (r + ![0, ε, 0]) 0 = r 0 := by simp
    have e1 : (r + ![0, ε, 0]) 1 = r 1 + ε := by simp
    have e2 : (r + ![0, ε, 0]) 2 = r 2 := by simp
    have a1 : shift1 (b.minima 0) (b.maxima 0) (b.l 0) (r 0) = (r 0, 0) := by
      rw [ok.minima, ok.maxima]; unfold shift1
      rw [if_neg (show ¬ r 0 ≥ b.l 0 from not_le.2 h0.2), if_neg (show ¬ r 0 < 0 from not_lt.2 h0.1)]
    have u : r 2 - b.d + b.c3 * (r 1 + ε - b.l 1) = r 2 + b.c3 * (r 1 + ε) := by linarith
    unfold Mono.shift Mono.shiftI
    rw [e0, e1, e2, a1, ok.maxima, if_pos (show r 1 + ε ≥ b.l 1 from hc)]
    simp only [ok.minima, ok.maxima]
    rw [u, if_neg (show ¬ r 2 + b.c3 * (r 1 + ε) ≥ b.l 2 from not_le.2 h2'.2),
      if_neg (show ¬ r 2 + b.c3 * (r 1 + ε) < 0 from not_lt.2 h2'.1)]
  have im : (b.image ![r 0, r 1 + ε - b.l 1, r 2 - b.d] r).2 = ![0, 1, 0] := by
    have a1 : image1 (b.half 0) (b.l 0) (r 0 - r 0) = (0, 0) := by
      have := ok.pos 0
      rw [ok.half]; unfold image1
      rw [sub_self, abs_zero, if_neg (show ¬ (0 : ℝ) > b.l 0 / 2 by linarith)]
    have y1 : r 1 + ε - b.l 1 - r 1 = ε - b.l 1 := by ring
    have z1 : r 2 - b.d - r 2 + b.c3 * (ε - b.l 1) = b.c3 * ε := by linarith
    have gen : ∀ r' : Vec, r' 0 - r 0 = r 0 - r 0 → r' 1 - r 1 = ε - b.l 1 →
        r' 2 - r 2 = r 2 - b.d - r 2 → (b.image r' r).2 = ![0, 1, 0] := by
      intro r' g0 g1 g2
      unfold Mono.image
      rw [g0, g1, g2, a1]
      simp only [ok.half, z1]
      rw [if_pos (show |ε - b.l 1| > b.l 1 / 2 by rw [abs_of_neg (by linarith)]; linarith),
        if_neg (show ¬ ε - b.l 1 > 0 by linarith),
        if_neg (show ¬ |b.c3 * ε| > b.l 2 / 2 from not_lt.2 hq)]
    exact gen _ rfl y1 rfl
  have p0 : (track (ofMono b) pos 0).atomPosition (ofMono b) = r := by
    funext j
    show b.shift r j + ((0 : ℤ) : ℝ) * b.lengths j = r j
    rw [s0]; simp
  have p1 : (track (ofMono b) pos 1).atomPosition (ofMono b) = r + ![0, ε, -b.d] := by
    funext j
    show b.shift (r + ![0, ε, 0]) j + (((0 : ℤ) + (b.image (b.shift (r + ![0, ε, 0])) (b.shift r)).2 j : ℤ) : ℝ)
      * b.lengths j = _
    rw [s0, s1, im, ok.lengths]
    fin_cases j
    · simp
    · simp
    · simp; ring
  rw [p1, p0]
  simp

/-! ### Displacements of molecules -/

/-- **C75 (molecules).** What the centre-of-mass analyzer follows, for molecules of two or more
atoms: the true centre of mass, less the share of the last atom, less the share of the wrapping of
the first atom. -/
theorem C75_com {b : Ortho} (hb : b.Reach) {N : ℕ} (hN : 2 ≤ N) (X mol : ℕ → ℕ → Vec)
    (hpos : ∀ t, NearCell b.lengths (mol t 0)) (hT : ∀ t, Traces b (mol t) (X t) N)
    (hstep : ∀ t i, |X (t + 1) 0 i - X t 0 i| < b.lengths i / 2) :
    ∃ (k : IVec) (n : ℕ → IVec), (∀ t, b.shift (mol t 0) = X t 0 + latVec b.lengths (n t)) ∧
      ∀ t, (track (ofOrtho b) (fun t => mol t 0) t).comPosition (ofOrtho b) (mol t) N =
        (1 / N : ℝ) • (∑ j ∈ Finset.range N, X t j) -
          (1 / N : ℝ) • (X t (N - 1) + latVec b.lengths (n t)) + latVec b.lengths k := by
  obtain ⟨n, hn⟩ := exists_images hb (X := fun t => X t 0) hpos (fun t => (hT t).same 0 (by omega))
  have hN' : (N : ℝ) ≠ 0 := by
    have : N ≠ 0 := by omega
    exact_mod_cast this
  refine ⟨n 0, n, hn, fun t => ?_⟩
  obtain ⟨M, rfl⟩ : ∃ M, N = M + 2 := ⟨N - 2, by omega⟩
  funext i
  show (comLoop (ofOrtho b) (mol t) (track (ofOrtho b) (fun t => mol t 0) t).old (M + 2 - 2)).2 i /
    ((M + 2 : ℕ) : ℝ) + (track (ofOrtho b) (fun t => mol t 0) t).shifts i * b.lengths i = _
  rw [track_shifts hb (X := fun t => X t 0) hpos hn hstep t i, track_old,
    (comLoop_eq hb (hT t) _ (M + 2 - 2) (by omega)).2]
  show (∑ j ∈ Finset.range (M + 2 - 2 + 1), (b.shift (mol t 0) + X t j - X t 0)) i / _ + _ = _
  rw [hn t]
  have e : M + 2 - 2 + 1 = M + 1 := by omega
  have e' : M + 2 - 1 = M + 1 := by omega
  rw [e, e', Finset.sum_range_succ (fun j => X t j) (M + 1)]
  simp only [Finset.sum_apply, Pi.add_apply, Pi.sub_apply, Pi.smul_apply, smul_eq_mul, latVec]
  have e2 : ∑ j ∈ Finset.range (M + 1), (X t 0 i + (n t i : ℝ) * b.lengths i + X t j i - X t 0 i) =
      (M + 1) * (n t i * b.lengths i) + ∑ j ∈ Finset.range (M + 1), X t j i := by
    have : ∀ j, X t 0 i + (n t i : ℝ) * b.lengths i + X t j i - X t 0 i =
        n t i * b.lengths i + X t j i := fun j => by ring
    simp only [this, Finset.sum_add_distrib, Finset.sum_const, Finset.card_range, nsmul_eq_mul]
    push_cast; ring
  rw [e2]
  generalize (∑ j ∈ Finset.range (M + 1), X t j i) = S
  push_cast at hN' ⊢
  field_simp
  ring

/-- **C75 (molecules, violated).** For any molecule of two or more atoms, moved rigidly by `v` with
its first atom inside the primary cell before and after, the measured displacement is
`(N - 1)/N` times the true one. -/
theorem C75_com_violated {b : Ortho} (hb : b.Reach) {N : ℕ} (hN : 2 ≤ N) (x mol : ℕ → Vec) (v : Vec)
    (hx : Traces b mol x N) (h0 : InCell b.lengths (mol 0)) (h1 : InCell b.lengths (mol 0 + v))
    (hv : ∀ i, |v i| < b.lengths i / 2) :
    let conf : ℕ → ℕ → Vec := fun t j => if t = 0 then mol j else mol j + v
    let tr := track (ofOrtho b) (fun t => conf t 0)
    (tr 1).comPosition (ofOrtho b) (conf 1) N - (tr 0).comPosition (ofOrtho b) (conf 0) N =
      ((N - 1) / N : ℝ) • v := by
  intro conf tr
  have near : ∀ {r}, InCell b.lengths r → NearCell b.lengths r := fun {r} h i => by
    have := hb.ok.pos i
    exact ⟨by linarith [(h i).1], by linarith [(h i).2]⟩
  have stay : ∀ {r}, InCell b.lengths r → b.shift r = r := fun {r} h => by
    obtain ⟨h1, k, hk⟩ := inCell_shift hb (near h)
    funext i
    have e := congrFun hk i
    simp only [Pi.add_apply, latVec] at e
    have p := hb.ok.pos i
    have a : (k i : ℝ) < 1 := by
      by_contra hc; push Not at hc
      have := (h1 i).2; have := (h i).1; nlinarith
    have c : (-1 : ℝ) < k i := by
      by_contra hc; push Not at hc
      have := (h1 i).1; have := (h i).2; nlinarith
    have a' : k i < 1 := by exact_mod_cast a
    have c' : -1 < k i := by exact_mod_cast c
    have : k i = 0 := by omega
    rw [e, this]; simp
  have cell : ∀ t, InCell b.lengths (conf t 0) := fun t => by
    show InCell b.lengths (if t = 0 then mol 0 else mol 0 + v)
    split_ifs
    · exact h0
    · exact h1
  obtain ⟨k0, hk0⟩ := hx.same 0 (by omega)
  have tr' : ∀ t, Traces b (conf t) (fun j => if t = 0 then x j else x j + v) N := fun t => by
    by_cases ht : t = 0
    · simp only [conf, ht, if_true]; exact hx
    · simp only [conf, ht, if_false]
      refine ⟨fun j hj => ?_, fun j hj i => ?_, fun j hj i => ?_⟩
      · obtain ⟨k, hk⟩ := hx.same j hj
        exact ⟨k, by rw [hk]; abel⟩
      · have := hx.within j hj i
        simpa using this
      · have := hx.short j hj i
        simpa using this
  obtain ⟨k, n, hn, hpos⟩ := C75_com hb hN (fun t j => if t = 0 then x j else x j + v) conf
    (fun t => near (cell t)) tr' (fun t i => by
      by_cases ht : t = 0
      · simp only [ht, if_true, if_false, Pi.add_apply, zero_add, one_ne_zero, add_sub_cancel_left]
        exact hv i
      · simp only [ht, if_false, Nat.succ_ne_zero, sub_self, abs_zero]
        exact half_pos (hb.ok.pos i))
  have hN' : (N : ℝ) ≠ 0 := by
    have : N ≠ 0 := by omega
    exact_mod_cast this
  rw [hpos 1, hpos 0]
  have n0 := hn 0
  have n1 := hn 1
  rw [stay (cell 0)] at n0
  rw [stay (cell 1)] at n1
  simp only [conf, if_true, one_ne_zero, if_false] at n0 n1 ⊢
  have nn : latVec b.lengths (n 1) = latVec b.lengths (n 0) := by
    have e : latVec b.lengths (n 1) = mol 0 + v - (x 0 + v) := by rw [n1]; abel
    have e' : latVec b.lengths (n 0) = mol 0 - x 0 := by rw [n0]; abel
    rw [e, e']; abel
  rw [nn, Finset.sum_add_distrib, Finset.sum_const, Finset.card_range]
  rw [← Nat.cast_smul_eq_nsmul ℝ N v]
  funext i
  simp only [Pi.add_apply, Pi.sub_apply, Pi.smul_apply, smul_eq_mul]
  field_simp
  ring

/-- **C75 (molecules of one atom).** For one atom the two analyzers agree, so `C75_atom` applies. -/
theorem C75_com_single (b : Box) (t : Track) (mol : ℕ → Vec) :
    t.comPosition b mol 1 = t.atomPosition b := by
  funext j
  show (comLoop b mol t.old 0).2 j / ((1 : ℕ) : ℝ) + _ = _
  rw [comLoop]
  simp [Track.atomPosition]

/-! ### Shapes -/

theorem gyration_eq {b : Ortho} (hb : b.Reach) {N : ℕ} (hN : 1 ≤ N) {mol X : ℕ → Vec}
    (h : Traces b mol X N) : gyration (ofOrtho b) mol N =
      (∑ i ∈ Finset.range N, ∑ j ∈ Finset.range N, square (X i - X j)) / (2 * N) := by
  have e : ∀ v : Vec, square v = v 0 ^ 2 + v 1 ^ 2 + v 2 ^ 2 := fun v => by unfold square; ring
  have c : ∀ i, ∑ j ∈ Finset.range N, (mapOf (ofOrtho b) mol j i -
      (∑ k ∈ Finset.range N, mapOf (ofOrtho b) mol k i) / N) ^ 2 =
      (∑ k ∈ Finset.range N, ∑ j ∈ Finset.range N, (X k i - X j i) ^ 2) / (2 * N) := by
    intro i
    rw [spread N hN fun j => mapOf (ofOrtho b) mol j i]
    congr 1
    refine Finset.sum_congr rfl fun k hk => Finset.sum_congr rfl fun j hj => ?_
    rw [mapOf_eq hb h k (Finset.mem_range.1 hk), mapOf_eq hb h j (Finset.mem_range.1 hj)]
    simp only [Pi.add_apply, Pi.sub_apply]
    ring
  unfold gyration
  simp only [e, Finset.sum_add_distrib, Pi.sub_apply]
  rw [c 0, c 1, c 2]
  ring

/-- **C75 (radius of gyration).** The value is the mean over the molecules of
`(1/2N²) Σᵢⱼ |Xᵢ - Xⱼ|²`, with the true positions of the atoms. -/
theorem C75_gyration {b : Ortho} (hb : b.Reach) {N : ℕ} (hN : 1 ≤ N) (l : List ((ℕ → Vec) × (ℕ → Vec)))
    (hl : l ≠ []) (h : ∀ m ∈ l, Traces b m.1 m.2 N) :
    radiusGyrationSq (ofOrtho b) (l.map Prod.fst) N =
      (l.map fun m => (∑ i ∈ Finset.range N, ∑ j ∈ Finset.range N, square (m.2 i - m.2 j)) /
        (2 * (N : ℝ) ^ 2)).sum / l.length := by
  have hN' : (N : ℝ) ≠ 0 := by
    have : N ≠ 0 := by omega
    exact_mod_cast this
  have hl' : (l.length : ℝ) ≠ 0 := by
    have : l.length ≠ 0 := fun h => hl (List.length_eq_zero_iff.1 h)
    exact_mod_cast this
  unfold radiusGyrationSq
  rw [List.map_map, List.length_map]
  have e : l.map ((fun mol => gyration (ofOrtho b) mol N) ∘ Prod.fst) =
      l.map fun m => ((∑ i ∈ Finset.range N, ∑ j ∈ Finset.range N, square (m.2 i - m.2 j)) /
        (2 * (N : ℝ) ^ 2)) * N := by
    refine List.map_congr_left fun m hm => ?_
    show gyration (ofOrtho b) m.1 N = _
    rw [gyration_eq hb hN (h m hm)]
    field_simp
  rw [e, List.sum_map_mul_right]
  field_simp

/-- **C75 (pairs within a molecule).** The vector that is correlated is the true separation of the
first atom from the second, however the molecule is wrapped. -/
theorem C75_pair {b : Ortho} (hb : b.Reach) {N : ℕ} {mol X : ℕ → Vec} (h : Traces b mol X N)
    (atom1 : ℕ) : ∀ atom2, atom1 < atom2 → atom2 < N →
      intraPair (ofOrtho b) mol atom1 atom2 = X atom1 - X atom2 := by
  intro atom2 h12
  induction atom2, h12 using Nat.le_induction with
  | base =>
    intro hn
    unfold intraPair
    rw [Nat.succ_eq_add_one, Nat.Ioc_succ_singleton, Finset.sum_singleton, Nat.add_sub_cancel]
    exact h.sep' hb hn
  | succ m hm ih =>
    intro hn
    unfold intraPair at ih ⊢
    rw [← Finset.sum_Ioc_consecutive _ (show atom1 ≤ m by omega) (show m ≤ m + 1 by omega),
      ih (by omega), Nat.Ioc_succ_singleton, Finset.sum_singleton, Nat.add_sub_cancel]
    show _ + b.separation (mol m) (mol (m + 1)) = _
    rw [h.sep' hb hn]; abel

/-! ### Rouse modes -/

/-- **C75 (modes).** The amplitude is the projection of the true positions, plus the sum of the
projector times the distance of the stored first atom from its true position. -/
theorem C75_mode {b : Ortho} (hb : b.Reach) {N : ℕ} {mol X : ℕ → Vec} (h : Traces b mol X N)
    (proj : ℕ → ℝ) : mode (ofOrtho b) proj mol N =
      ∑ j ∈ Finset.range N, proj j • X j + (∑ j ∈ Finset.range N, proj j) • (mol 0 - X 0) := by
  unfold mode
  rw [Finset.sum_smul, ← Finset.sum_add_distrib]
  refine Finset.sum_congr rfl fun j hj => ?_
  rw [retrace_eq hb h j (Finset.mem_range.1 hj), smul_add]

theorem sum_ring {N p : ℕ} (hN : 1 ≤ N) (hp : p ≠ 0) (he : p % 2 = 0 → ¬ N ∣ p / 2) :
    ∑ j ∈ Finset.range N, ringProjector p N j = 0 := by
  have hN' : (N : ℝ) ≠ 0 := by
    have : N ≠ 0 := by omega
    exact_mod_cast this
  by_cases h2 : p % 2 = 0
  · have : ∀ j, ringProjector p N j = 1 / N * Real.cos (2 * Real.pi * (p / 2 : ℕ) / N * j) :=
      fun j => by unfold ringProjector; rw [if_neg hp, if_pos h2]
    simp only [this, ← Finset.mul_sum]
    rw [(sum_ring_root hN (he h2)).1, mul_zero]
  · have : ∀ j, ringProjector p N j = 1 / N * Real.sin (2 * Real.pi * ((p + 1) / 2 : ℕ) / N * j) :=
      fun j => by unfold ringProjector; rw [if_neg hp, if_neg h2]
    simp only [this, ← Finset.mul_sum]
    by_cases hk : N ∣ (p + 1) / 2
    · obtain ⟨m, hm⟩ := hk
      rw [hm]
      have z : ∀ j : ℕ, Real.sin (2 * Real.pi * (N * m : ℕ) / N * j) = 0 := fun j => by
        rw [show 2 * Real.pi * ((N * m : ℕ) : ℝ) / N * j = ((2 * m * j : ℕ) : ℝ) * Real.pi by
          push_cast; field_simp]
        exact Real.sin_nat_mul_pi _
      simp only [z, Finset.sum_const_zero, mul_zero]
    · rw [(sum_ring_root hN hk).2, mul_zero]

/-- **C75 (modes of rings).** For every mode but the zeroth and those that repeat it, the amplitude
is the projection of the true positions: the same for all images and translations of the ring. -/
theorem C75_ring {b : Ortho} (hb : b.Reach) {N p : ℕ} (hN : 1 ≤ N) (hp : p ≠ 0)
    (he : p % 2 = 0 → ¬ N ∣ p / 2) {mol X : ℕ → Vec} (h : Traces b mol X N) (v : Vec) :
    mode (ofOrtho b) (ringProjector p N) mol N =
      ∑ j ∈ Finset.range N, ringProjector p N j • (X j + v) := by
  rw [C75_mode hb h, sum_ring hN hp he, zero_smul, add_zero]
  simp only [smul_add, Finset.sum_add_distrib, ← Finset.sum_smul]
  rw [sum_ring hN hp he, zero_smul, add_zero]

theorem sum_linear_mode {N p : ℕ} (hN : 2 ≤ N) (hd : ¬ 2 * (N - 1) ∣ p) :
    ∑ j ∈ Finset.range N, linearProjector p N j = ((-1) ^ p - 1) / (2 * N) := by
  have hp : p ≠ 0 := by rintro rfl; exact hd (dvd_zero _)
  rw [sum_linear p hN, if_neg hp]
  obtain ⟨M, rfl⟩ : ∃ M, N = M + 1 := ⟨N - 1, by omega⟩
  have e : ((M + 1 : ℕ) : ℝ) - 1 = M := by push_cast; ring
  rw [e, sum_cos_chain (by omega) (by simpa using hd)]
  have : ((M + 1 : ℕ) : ℝ) ≠ 0 := by positivity
  field_simp
  ring

/-- **C75 (modes of chains).** For even modes that do not repeat the zeroth, the amplitude is the
projection of the true positions: the same for all images and translations of the chain. -/
theorem C75_linear {b : Ortho} (hb : b.Reach) {N p : ℕ} (hN : 2 ≤ N) (hp : Even p)
    (hd : ¬ 2 * (N - 1) ∣ p) {mol X : ℕ → Vec} (h : Traces b mol X N) (v : Vec) :
    mode (ofOrtho b) (linearProjector p N) mol N =
      ∑ j ∈ Finset.range N, linearProjector p N j • (X j + v) := by
  have z : ∑ j ∈ Finset.range N, linearProjector p N j = 0 := by
    rw [sum_linear_mode hN hd, hp.neg_one_pow]; simp
  rw [C75_mode hb h, z, zero_smul, add_zero]
  simp only [smul_add, Finset.sum_add_distrib, ← Finset.sum_smul]
  rw [z, zero_smul, add_zero]

/-- **C75 (modes of chains, violated).** For every odd mode the correction of the last element has
the wrong sign.  The amplitude contains the position of the first atom: two stored copies of the same
chain, wrapped differently, give amplitudes that differ by the `N`-th part of the difference of their
first atoms. -/
theorem C75_linear_violated {b : Ortho} (hb : b.Reach) {N p : ℕ} (hN : 2 ≤ N) (hp : Odd p)
    {mol mol' X : ℕ → Vec} (h : Traces b mol X N) (h' : Traces b mol' X N) :
    mode (ofOrtho b) (linearProjector p N) mol' N - mode (ofOrtho b) (linearProjector p N) mol N =
      (-1 / N : ℝ) • (mol' 0 - mol 0) := by
  have hd : ¬ 2 * (N - 1) ∣ p := fun hd => by
    obtain ⟨k, hk⟩ := hd
    exact (Nat.not_even_iff_odd.2 hp) ⟨(N - 1) * k, by rw [hk]; ring⟩
  have hN' : (N : ℝ) ≠ 0 := by
    have : N ≠ 0 := by omega
    exact_mod_cast this
  have z : ∑ j ∈ Finset.range N, linearProjector p N j = -1 / N := by
    rw [sum_linear_mode hN hd, hp.neg_one_pow]; field_simp; norm_num
  rw [C75_mode hb h, C75_mode hb h', z]
  funext i
  simp only [Pi.add_apply, Pi.sub_apply, Pi.smul_apply, smul_eq_mul]
  ring

end Verif.Analyze
