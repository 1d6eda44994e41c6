import Verif.Ewald.Model
import Mathlib.Data.List.Nodup
import Mathlib.Data.List.FinRange
import Mathlib.Tactic.Linarith
import Mathlib.Tactic.Positivity
import Mathlib.Tactic.FieldSimp

/-! # Ewald summation: the list of wavevectors -/

set_option autoImplicit false

namespace Verif.Ewald

open Verif.Boundary Verif.Cpp Verif.Cpp.Out

/-- Scalar triple product. -/
def triple (a : Fin 3 → Vec) : ℝ :=
  a 0 0 * (a 1 1 * a 2 2 - a 1 2 * a 2 1) + a 0 1 * (a 1 2 * a 2 0 - a 1 0 * a 2 2) +
    a 0 2 * (a 1 0 * a 2 1 - a 1 1 * a 2 0)

/-- The basis vectors fit together. -/
structure Box.OK (b : Box) : Prop where
  vol : 0 < b.volume
  det : b.volume = triple b.bravais
  recip : ∀ i j, dot (b.reciprocal i) (b.bravais j) = if i = j then 2 * Real.pi else 0
  gen : ∀ r j, 2 * Real.pi * b.gen r j = dot (b.reciprocal j) r

theorem ofOrtho_ok {b : Ortho} (hb : b.Reach) : (ofOrtho b).OK := by
  have ok := hb.ok
  have p0 := ok.pos 0
  have p1 := ok.pos 1
  have p2 := ok.pos 2
  constructor
  · show 0 < b.volume
    rw [ok.volume]; positivity
  · show b.volume = triple b.bravais
    simp [ok.volume, triple, ok.bravais]; ring
  · intro i j
    simp only [ofOrtho, dot, ok.bravais, ok.reciprocal]
    fin_cases i <;> fin_cases j <;> simp <;> field_simp
  · intro r j
    simp only [ofOrtho, dot, ok.reciprocal, Ortho.toGen, ok.inv]
    fin_cases j <;> simp <;> field_simp

theorem ofMono_ok {b : Mono} (hb : b.Reach) : (ofMono b).OK := by
  have ok := hb.ok
  have p0 := ok.pos 0
  have p1 := ok.pos 1
  have p2 := ok.pos 2
  constructor
  · show 0 < b.volume
    rw [ok.volume]; positivity
  · show b.volume = triple b.bravais
    simp [ok.volume, triple, ok.bravais]; ring
  · intro i j
    simp only [ofMono, dot, ok.bravais, ok.reciprocal]
    fin_cases i <;> fin_cases j <;> simp <;> field_simp
    ring
  · intro r j
    simp only [ofMono, dot, ok.reciprocal, Mono.toGen, ok.inv, ok.c3]
    fin_cases j <;> simp <;> field_simp
    ring

/-! ## The lists made by the loops -/

/-- The wavevector with given indices. -/
def Box.wave (b : Box) (k : IVec) : Vec := latComb b.reciprocal k

/-- The record made for given indices. -/
noncomputable def Box.record (b : Box) (i : Inter) (k : IVec) : Wave :=
  ⟨k, normSq (b.wave k), i.kPot (normSq (b.wave k))⟩

/-- What one pass of the innermost loop appends. -/
noncomputable def one (b : Box) (i : Inter) (cutSq : ℝ) (k : IVec) : List Wave :=
  if normSq (b.wave k) ≤ cutSq then [b.record i k] else []

theorem wave_eq (b : Box) (k0 k1 k2 : ℤ) : b.wave ![k0, k1, k2] =
    (k0 : ℝ) • b.reciprocal 0 + (k1 : ℝ) • b.reciprocal 1 + (k2 : ℝ) • b.reciprocal 2 := rfl

theorem loop2_waves (b : Box) (i : Inter) (cutSq : ℝ) (k0 k1 : ℤ) (n : ℕ) :
    ∀ (k2 : ℤ) (q : Vec) (a : Acc), q + b.reciprocal 2 = b.wave ![k0, k1, k2] →
    (loop2 i cutSq (b.reciprocal 2) k0 k1 n k2 q a).waves =
      a.waves ++ (List.range n).flatMap fun j : ℕ => one b i cutSq ![k0, k1, k2 + (j : ℤ)] := by
  induction n with
  | zero => intro k2 q a _; simp [loop2]
  | succ n ih =>
    intro k2 q a hq
    have h2 : q + b.reciprocal 2 + b.reciprocal 2 = b.wave ![k0, k1, k2 + 1] := by
      rw [hq, wave_eq, wave_eq]; push_cast; module
    show (loop2 i cutSq (b.reciprocal 2) k0 k1 n (k2 + 1) (q + b.reciprocal 2) _).waves = _
    rw [ih _ _ _ h2, List.range_succ_eq_map, List.flatMap_cons, List.flatMap_map, hq,
      ← List.append_assoc]
    congr 1
    · simp only [Nat.cast_zero, add_zero, one]
      split
      · rfl
      · simp
    · congr 1; funext j; congr 1; push_cast; rw [add_assoc, add_comm (1 : ℤ)]

/-- What one pass of the middle loop appends. -/
noncomputable def row (b : Box) (i : Inter) (cutSq : ℝ) (m2 : ℤ) (k0 k1 : ℤ) : List Wave :=
  let mink2 : ℤ := if k0 = 0 ∧ k1 = 0 then 1 else -m2
  (List.range (m2 + 1 - mink2).toNat).flatMap fun j : ℕ => one b i cutSq ![k0, k1, mink2 + (j : ℤ)]

theorem loop1_waves (b : Box) (i : Inter) (cutSq : ℝ) (m2 : ℤ) (k0 : ℤ) (n : ℕ) :
    ∀ (k1 : ℤ) (q1 : Vec) (a : Acc), q1 + b.reciprocal 1 = b.wave ![k0, k1, 0] →
    (loop1 i cutSq (b.reciprocal 1) (b.reciprocal 2) m2 k0 n k1 q1 a).waves =
      a.waves ++ (List.range n).flatMap fun j : ℕ => row b i cutSq m2 k0 (k1 + (j : ℤ)) := by
  induction n with
  | zero => intro k1 q a _; simp [loop1]
  | succ n ih =>
    intro k1 q a hq
    have h2 : q + b.reciprocal 1 + b.reciprocal 1 = b.wave ![k0, k1 + 1, 0] := by
      rw [hq, wave_eq, wave_eq]; push_cast; module
    show (loop1 i cutSq (b.reciprocal 1) (b.reciprocal 2) m2 k0 n (k1 + 1)
      (q + b.reciprocal 1) _).waves = _
    rw [ih _ _ _ h2, List.range_succ_eq_map, List.flatMap_cons, List.flatMap_map, loop2_waves,
      ← List.append_assoc]
    · congr 1
      · simp only [Nat.cast_zero, add_zero, row]
      · congr 1; funext j; congr 1; push_cast; ring
    · rw [hq, wave_eq, wave_eq]; push_cast; module

/-- What one pass of the outer loop appends. -/
noncomputable def slab (b : Box) (i : Inter) (cutSq : ℝ) (m1 m2 : ℤ) (k0 : ℤ) : List Wave :=
  let mink1 : ℤ := if k0 = 0 then 0 else -m1
  (List.range (m1 + 1 - mink1).toNat).flatMap fun j : ℕ => row b i cutSq m2 k0 (mink1 + (j : ℤ))

theorem loop0_waves (b : Box) (i : Inter) (cutSq : ℝ) (m1 m2 : ℤ) (n : ℕ) :
    ∀ (k0 : ℤ) (q0 : Vec) (a : Acc), q0 + b.reciprocal 0 = b.wave ![k0, 0, 0] →
    (loop0 i cutSq (b.reciprocal 0) (b.reciprocal 1) (b.reciprocal 2) m1 m2 n k0 q0 a).waves =
      a.waves ++ (List.range n).flatMap fun j : ℕ => slab b i cutSq m1 m2 (k0 + (j : ℤ)) := by
  induction n with
  | zero => intro k1 q a _; simp [loop0]
  | succ n ih =>
    intro k0 q a hq
    have h2 : q + b.reciprocal 0 + b.reciprocal 0 = b.wave ![k0 + 1, 0, 0] := by
      rw [hq, wave_eq, wave_eq]; push_cast; module
    show (loop0 i cutSq (b.reciprocal 0) (b.reciprocal 1) (b.reciprocal 2) m1 m2 n (k0 + 1)
      (q + b.reciprocal 0) _).waves = _
    rw [ih _ _ _ h2, List.range_succ_eq_map, List.flatMap_cons, List.flatMap_map, loop1_waves,
      ← List.append_assoc]
    · congr 1
      · simp only [Nat.cast_zero, add_zero, slab]
      · congr 1; funext j; congr 1; push_cast; ring
    · rw [hq, wave_eq, wave_eq]; push_cast; module

/-! ## Members -/

theorem mem_one {b : Box} {i : Inter} {c : ℝ} {k : IVec} {w : Wave} :
    w ∈ one b i c k ↔ normSq (b.wave k) ≤ c ∧ w = b.record i k := by
  unfold one; split <;> simp_all

theorem mem_range_shift {lo hi k : ℤ} :
    (∃ j ∈ List.range (hi + 1 - lo).toNat, lo + ((j : ℕ) : ℤ) = k) ↔ lo ≤ k ∧ k ≤ hi := by
  simp only [List.mem_range]
  constructor
  · rintro ⟨j, hj, rfl⟩; omega
  · rintro ⟨h1, h2⟩; exact ⟨(k - lo).toNat, by omega, by omega⟩

theorem mem_row {b : Box} {i : Inter} {c : ℝ} {m2 k0 k1 : ℤ} {w : Wave} :
    w ∈ row b i c m2 k0 k1 ↔ ∃ k2, (if k0 = 0 ∧ k1 = 0 then 1 else -m2) ≤ k2 ∧ k2 ≤ m2 ∧
      w ∈ one b i c ![k0, k1, k2] := by
  simp only [row, List.mem_flatMap]
  constructor
  · rintro ⟨j, hj, hw⟩
    have := (mem_range_shift (lo := if k0 = 0 ∧ k1 = 0 then 1 else -m2) (hi := m2)).1 ⟨j, hj, rfl⟩
    exact ⟨_, this.1, this.2, hw⟩
  · rintro ⟨k2, h1, h2, hw⟩
    obtain ⟨j, hj, rfl⟩ := (mem_range_shift (lo := if k0 = 0 ∧ k1 = 0 then 1 else -m2)
      (hi := m2)).2 ⟨h1, h2⟩
    exact ⟨j, hj, hw⟩

theorem mem_slab {b : Box} {i : Inter} {c : ℝ} {m1 m2 k0 : ℤ} {w : Wave} :
    w ∈ slab b i c m1 m2 k0 ↔ ∃ k1, (if k0 = 0 then 0 else -m1) ≤ k1 ∧ k1 ≤ m1 ∧
      w ∈ row b i c m2 k0 k1 := by
  simp only [slab, List.mem_flatMap]
  constructor
  · rintro ⟨j, hj, hw⟩
    have := (mem_range_shift (lo := if k0 = 0 then 0 else -m1) (hi := m1)).1 ⟨j, hj, rfl⟩
    exact ⟨_, this.1, this.2, hw⟩
  · rintro ⟨k2, h1, h2, hw⟩
    obtain ⟨j, hj, rfl⟩ := (mem_range_shift (lo := if k0 = 0 then 0 else -m1)
      (hi := m1)).2 ⟨h1, h2⟩
    exact ⟨j, hj, hw⟩

/-- The list of all waves. -/
noncomputable def allWaves (b : Box) (i : Inter) (c : ℝ) (m0 m1 m2 : ℤ) : List Wave :=
  (List.range (m0 + 1).toNat).flatMap fun j : ℕ => slab b i c m1 m2 ((0 : ℤ) + (j : ℤ))

/-- One of each pair of opposite nonzero wavevectors: the first nonzero index is positive. -/
def Half (k : IVec) : Prop :=
  0 < k 0 ∨ (k 0 = 0 ∧ (0 < k 1 ∨ (k 1 = 0 ∧ 0 < k 2)))

theorem mem_allWaves {b : Box} {i : Inter} {c : ℝ} {m0 m1 m2 : ℤ} {w : Wave} :
    w ∈ allWaves b i c m0 m1 m2 ↔ (Half w.k ∧ w.k 0 ≤ m0 ∧ |w.k 1| ≤ m1 ∧ |w.k 2| ≤ m2) ∧
      normSq (b.wave w.k) ≤ c ∧ w = b.record i w.k := by
  simp only [allWaves, List.mem_flatMap]
  constructor
  · rintro ⟨j, hj, hw⟩
    obtain ⟨k1, h1, h1', hw⟩ := mem_slab.1 hw
    obtain ⟨k2, h2, h2', hw⟩ := mem_row.1 hw
    obtain ⟨hc, hw⟩ := mem_one.1 hw
    have hk : w.k = ![0 + (j : ℤ), k1, k2] := by rw [hw]; rfl
    rw [List.mem_range] at hj
    have e0 : w.k 0 = j := by rw [hk]; simp
    have e1 : w.k 1 = k1 := by rw [hk]; simp
    have e2 : w.k 2 = k2 := by rw [hk]; simp
    refine ⟨⟨?_, by omega, ?_, ?_⟩, by rw [hk]; exact hc, by rw [hk]; exact hw⟩
    · unfold Half; rw [e0, e1, e2]
      split at h1 <;> split at h2 <;> omega
    · rw [e1, abs_le]; split at h1 <;> constructor <;> omega
    · rw [e2, abs_le]; split at h2 <;> constructor <;> omega
  · rintro ⟨⟨hh, h0, h1, h2⟩, hc, hw⟩
    rw [abs_le] at h1 h2
    have hk : w.k = ![0 + ((w.k 0).toNat : ℤ), w.k 1, w.k 2] := by
      have : 0 ≤ w.k 0 := by rcases hh with h | h <;> omega
      funext j; fin_cases j <;> simp; omega
    have h00 : 0 ≤ w.k 0 := by rcases hh with h | h <;> omega
    refine ⟨(w.k 0).toNat, by rw [List.mem_range]; omega, mem_slab.2 ⟨w.k 1, ?_, h1.2,
      mem_row.2 ⟨w.k 2, ?_, h2.2, mem_one.2 ⟨?_, ?_⟩⟩⟩⟩
    · unfold Half at hh; split <;> omega
    · unfold Half at hh; split <;> omega
    · rw [← hk]; exact hc
    · rw [← hk]; exact hw

theorem one_nodup (b : Box) (i : Inter) (c : ℝ) (k : IVec) : (one b i c k).Nodup := by
  unfold one; split <;> simp

theorem row_key {b : Box} {i : Inter} {c : ℝ} {m2 k0 k1 : ℤ} {w : Wave} (h : w ∈ row b i c m2 k0 k1) :
    w.k 0 = k0 ∧ w.k 1 = k1 := by
  obtain ⟨k2, -, -, h⟩ := mem_row.1 h
  rw [(mem_one.1 h).2]; exact ⟨rfl, rfl⟩

theorem slab_key {b : Box} {i : Inter} {c : ℝ} {m1 m2 k0 : ℤ} {w : Wave}
    (h : w ∈ slab b i c m1 m2 k0) : w.k 0 = k0 := by
  obtain ⟨k1, -, -, h⟩ := mem_slab.1 h
  exact (row_key h).1

theorem row_nodup (b : Box) (i : Inter) (c : ℝ) (m2 k0 k1 : ℤ) : (row b i c m2 k0 k1).Nodup := by
  unfold row
  rw [List.nodup_flatMap]
  refine ⟨fun _ _ => one_nodup _ _ _ _, List.nodup_range.imp ?_⟩
  intro x y hxy
  rw [Function.onFun, List.disjoint_left]
  intro w h1 h2
  have e1 := congrArg (fun w : Wave => w.k 2) (mem_one.1 h1).2
  have e2 := congrArg (fun w : Wave => w.k 2) (mem_one.1 h2).2
  simp [Box.record] at e1 e2
  omega

theorem slab_nodup (b : Box) (i : Inter) (c : ℝ) (m1 m2 k0 : ℤ) : (slab b i c m1 m2 k0).Nodup := by
  unfold slab
  rw [List.nodup_flatMap]
  refine ⟨fun _ _ => row_nodup _ _ _ _ _ _, List.nodup_range.imp ?_⟩
  intro x y hxy
  rw [Function.onFun, List.disjoint_left]
  intro w h1 h2
  have e1 := (row_key h1).2
  have e2 := (row_key h2).2
  omega

theorem allWaves_nodup (b : Box) (i : Inter) (c : ℝ) (m0 m1 m2 : ℤ) :
    (allWaves b i c m0 m1 m2).Nodup := by
  unfold allWaves
  rw [List.nodup_flatMap]
  refine ⟨fun _ _ => slab_nodup _ _ _ _ _ _, List.nodup_range.imp ?_⟩
  intro x y hxy
  rw [Function.onFun, List.disjoint_left]
  intro w h1 h2
  have e1 := slab_key h1
  have e2 := slab_key h2
  omega

/-! ## Bounds of the indices -/

/-- The bounds hold for all waves so far. -/
structure Acc.In (a : Acc) : Prop where
  k0 : ∀ w ∈ a.waves, 0 ≤ w.k 0 ∧ w.k 0 ≤ a.upper0
  k1 : ∀ w ∈ a.waves, a.base1 ≤ w.k 1 ∧ w.k 1 ≤ a.upper1
  k2 : ∀ w ∈ a.waves, a.base2 ≤ w.k 2 ∧ w.k 2 ≤ a.upper2

theorem Acc.In.add {a : Acc} (h : a.In) (i : Inter) {x0 : ℤ} (h0 : 0 ≤ x0) (x1 x2 : ℤ) (ksq : ℝ) :
    (a.add i x0 x1 x2 ksq).In := by
  constructor
  all_goals
    intro w hw
    simp only [Acc.add, List.mem_append, List.mem_singleton] at hw ⊢
    rcases hw with hw | rfl
  · have := h.k0 w hw; split <;> omega
  · simp; exact ⟨h0, by split <;> omega⟩
  · have := h.k1 w hw; constructor <;> split <;> omega
  · simp; constructor <;> split <;> omega
  · have := h.k2 w hw; constructor <;> split <;> omega
  · simp; constructor <;> split <;> omega

theorem loop2_in (i : Inter) (c : ℝ) (b2 : Vec) {k0 : ℤ} (h0 : 0 ≤ k0) (k1 : ℤ) (n : ℕ) :
    ∀ (k2 : ℤ) (q : Vec) (a : Acc), a.In → (loop2 i c b2 k0 k1 n k2 q a).In := by
  induction n with
  | zero => intro _ _ _ h; exact h
  | succ n ih =>
    intro k2 q a h
    refine ih _ _ _ ?_
    split
    · exact h.add i h0 _ _ _
    · exact h

theorem loop1_in (i : Inter) (c : ℝ) (b1 b2 : Vec) (m2 : ℤ) {k0 : ℤ} (h0 : 0 ≤ k0) (n : ℕ) :
    ∀ (k1 : ℤ) (q : Vec) (a : Acc), a.In → (loop1 i c b1 b2 m2 k0 n k1 q a).In := by
  induction n with
  | zero => intro _ _ _ h; exact h
  | succ n ih =>
    intro k1 q a h
    exact ih _ _ _ (loop2_in i c b2 h0 _ _ _ _ _ h)

theorem loop0_in (i : Inter) (c : ℝ) (b0 b1 b2 : Vec) (m1 m2 : ℤ) (n : ℕ) :
    ∀ (k0 : ℤ) (q : Vec) (a : Acc), 0 ≤ k0 → a.In → (loop0 i c b0 b1 b2 m1 m2 n k0 q a).In := by
  induction n with
  | zero => intro _ _ _ _ h; exact h
  | succ n ih =>
    intro k0 q a h0 h
    exact ih _ _ _ (by omega) (loop1_in i c b1 b2 m2 h0 _ _ _ _ h)

/-- The tables of exponentials have room for all waves. -/
structure St.Indexed (s : St) : Prop where
  b0 : ∀ w ∈ s.waves, 0 ≤ w.k 0 - s.base0 ∧ w.k 0 - s.base0 < s.n0
  b1 : ∀ w ∈ s.waves, 0 ≤ w.k 1 - s.base1 ∧ w.k 1 - s.base1 < s.n1
  b2 : ∀ w ∈ s.waves, 0 ≤ w.k 2 - s.base2 ∧ w.k 2 - s.base2 < s.n2

/-! ## Completeness -/

theorem dot_sq_le (u v : Vec) : dot u v ^ 2 ≤ normSq u * normSq v := by
  unfold dot normSq
  nlinarith [sq_nonneg (u 0 * v 1 - u 1 * v 0), sq_nonneg (u 0 * v 2 - u 2 * v 0),
    sq_nonneg (u 1 * v 2 - u 2 * v 1)]

theorem normSq_nonneg' (v : Vec) : 0 ≤ normSq v := by unfold normSq; positivity

theorem dot_wave {b : Box} (hb : b.OK) (k : IVec) (j : Fin 3) :
    dot (b.wave k) (b.bravais j) = 2 * Real.pi * k j := by
  have e : dot (b.wave k) (b.bravais j) = k 0 * dot (b.reciprocal 0) (b.bravais j) +
      k 1 * dot (b.reciprocal 1) (b.bravais j) + k 2 * dot (b.reciprocal 2) (b.bravais j) := by
    simp only [Box.wave, latComb, dot, Pi.add_apply, Pi.smul_apply, smul_eq_mul]; ring
  rw [e, hb.recip, hb.recip, hb.recip]
  fin_cases j <;> simp <;> ring

/-- No wavevector within the cutoff has an index beyond the limits of the loops. -/
theorem index_le {b : Box} (hb : b.OK) {cut : ℝ} (hc : 0 ≤ cut) {k : IVec}
    (h : normSq (b.wave k) ≤ cut * cut) (j : Fin 3) : |k j| ≤ maxIndex b cut j := by
  have h1 := dot_sq_le (b.wave k) (b.bravais j)
  rw [dot_wave hb] at h1
  have hn := normSq_nonneg' (b.bravais j)
  have h2 : (2 * Real.pi * (k j : ℝ)) ^ 2 ≤ (cut * Real.sqrt (normSq (b.bravais j))) ^ 2 := by
    rw [mul_pow cut, Real.sq_sqrt hn, sq cut]
    exact h1.trans (mul_le_mul_of_nonneg_right h hn)
  have h3 := abs_le_of_sq_le_sq h2 (by positivity)
  have hp := Real.pi_pos
  have h4 : |(k j : ℝ)| ≤ cut * Real.sqrt (normSq (b.bravais j)) / (2 * Real.pi) := by
    rw [le_div_iff₀ (by positivity), ← abs_of_pos (show (0 : ℝ) < 2 * Real.pi by positivity),
      ← abs_mul, mul_comm (k j : ℝ)]
    exact h3
  unfold maxIndex
  have h5 := h4.trans (Int.le_ceil _)
  rw [← Int.cast_abs] at h5
  exact_mod_cast h5

theorem bravais_pos {b : Box} (hb : b.OK) (j : Fin 3) : 0 < normSq (b.bravais j) := by
  rcases (normSq_nonneg' (b.bravais j)).lt_or_eq with h | h
  · exact h
  · have h1 := dot_sq_le (b.reciprocal j) (b.bravais j)
    rw [hb.recip, ← h] at h1
    have hp := Real.pi_pos
    have : 0 < (2 * Real.pi) ^ 2 := by positivity
    simp at h1

theorem maxIndex_pos {b : Box} (hb : b.OK) {cut : ℝ} (j : Fin 3) : 0 < maxIndex b cut j ↔ 0 < cut := by
  have h := Real.sqrt_pos.2 (bravais_pos hb j)
  have hp := Real.pi_pos
  unfold maxIndex
  rw [Int.ceil_pos, lt_div_iff₀ (by positivity), zero_mul]
  exact ⟨fun h' => (pos_iff_pos_of_mul_pos h').2 h, fun h' => mul_pos h' h⟩

/-! ## `makeWaves` -/

/-- What `makeWaves` stores, whatever was stored before. -/
structure Made (b : Box) (s t : St) : Prop where
  inter : t.inter = s.inter
  kCut : t.kCut = s.kCut
  waves : t.waves = allWaves b s.inter (s.kCut * s.kCut) (maxIndex b s.kCut 0) (maxIndex b s.kCut 1)
    (maxIndex b s.kCut 2)
  idx : t.Indexed
  has : t.hasWaves = true
  kE : t.kSpaceEnergy = s.kSpaceEnergy
  kS : t.kSpaceStress = s.kSpaceStress
  rE : t.rSpaceEnergy = s.rSpaceEnergy

theorem makeWaves_cases (b : Box) (s : St) :
    (∃ t, s.makeWaves b = .ok t ∧ Made b s t ∧ (∀ j, 0 < maxIndex b s.kCut j) ∧ t.waves ≠ []) ∨
    (s.makeWaves b = .throw ∧ ((∃ j, ¬ 0 < maxIndex b s.kCut j) ∨
      allWaves b s.inter (s.kCut * s.kCut) (maxIndex b s.kCut 0) (maxIndex b s.kCut 1)
        (maxIndex b s.kCut 2) = [])) := by
  by_cases h0 : 0 < maxIndex b s.kCut 0
  swap
  · right; exact ⟨by simp [St.makeWaves, check, h0], .inl ⟨0, h0⟩⟩
  by_cases h1 : 0 < maxIndex b s.kCut 1
  swap
  · right; exact ⟨by simp [St.makeWaves, check, h0, h1], .inl ⟨1, h1⟩⟩
  by_cases h2 : 0 < maxIndex b s.kCut 2
  swap
  · right; exact ⟨by simp [St.makeWaves, check, h0, h1, h2], .inl ⟨2, h2⟩⟩
  have hw := loop0_waves b s.inter (s.kCut * s.kCut) (maxIndex b s.kCut 1) (maxIndex b s.kCut 2)
    (maxIndex b s.kCut 0 + 1).toNat 0 ((-1 : ℝ) • b.reciprocal 0)
    ⟨[], -maxIndex b s.kCut 0, maxIndex b s.kCut 1, -maxIndex b s.kCut 1, maxIndex b s.kCut 2,
      -maxIndex b s.kCut 2⟩ (by rw [wave_eq]; push_cast; module)
  have hi := loop0_in s.inter (s.kCut * s.kCut) (b.reciprocal 0) (b.reciprocal 1) (b.reciprocal 2)
    (maxIndex b s.kCut 1) (maxIndex b s.kCut 2)
    (maxIndex b s.kCut 0 + 1).toNat 0 ((-1 : ℝ) • b.reciprocal 0)
    ⟨[], -maxIndex b s.kCut 0, maxIndex b s.kCut 1, -maxIndex b s.kCut 1, maxIndex b s.kCut 2,
      -maxIndex b s.kCut 2⟩ le_rfl ⟨by simp, by simp, by simp⟩
  unfold St.makeWaves
  simp only [check_true h0, check_true h1, check_true h2, ok_bind]
  revert hw hi
  generalize loop0 s.inter (s.kCut * s.kCut) (b.reciprocal 0) (b.reciprocal 1) (b.reciprocal 2)
    (maxIndex b s.kCut 1) (maxIndex b s.kCut 2)
    (maxIndex b s.kCut 0 + 1).toNat 0 ((-1 : ℝ) • b.reciprocal 0)
    ⟨[], -maxIndex b s.kCut 0, maxIndex b s.kCut 1, -maxIndex b s.kCut 1, maxIndex b s.kCut 2,
      -maxIndex b s.kCut 2⟩ = a
  intro hw hi
  rw [List.nil_append] at hw
  change a.waves = allWaves b s.inter (s.kCut * s.kCut) (maxIndex b s.kCut 0) (maxIndex b s.kCut 1)
    (maxIndex b s.kCut 2) at hw
  by_cases hl : 0 < a.waves.length
  · left
    obtain ⟨w, hwm⟩ := List.exists_mem_of_length_pos hl
    have i0 := hi.k0 w hwm
    have i1 := hi.k1 w hwm
    have i2 := hi.k2 w hwm
    rw [check_true hl, check_true (show 0 < a.upper0 - 0 + 1 by omega),
      check_true (show 0 < a.upper1 - a.base1 + 1 by omega),
      check_true (show 0 < a.upper2 - a.base2 + 1 by omega)]
    refine ⟨_, rfl, ⟨rfl, rfl, hw, ⟨?_, ?_, ?_⟩, rfl, rfl, rfl, rfl⟩, ?_, ?_⟩
    · intro w' hw'; have := hi.k0 w' hw'; simp only; omega
    · intro w' hw'; have := hi.k1 w' hw'; simp only; omega
    · intro w' hw'; have := hi.k2 w' hw'; simp only; omega
    · intro j; fin_cases j <;> assumption
    · exact List.ne_nil_of_length_pos hl
  · right
    rw [check_false hl]
    refine ⟨rfl, .inr ?_⟩
    rw [← hw]
    exact List.eq_nil_of_length_eq_zero (by omega)

end Verif.Ewald
