import Verif.DdDomain.Model
import Verif.McCellList.Grid

/-!
# C14, C15: processor grid and ownership of positions
-/

set_option autoImplicit false

namespace Verif.DdDomain

open Verif.Boundary Verif.Cpp

/-- Coordinates in the range of the grid. -/
def InGrid (n c : IVec) : Prop := ∀ i, 0 ≤ c i ∧ c i < n i

theorem gridRank_eq (n c : IVec) : gridRank n c = McCellList.cellIndex n (c 0) (c 1) (c 2) := rfl

theorem gridPosition_eq (n : IVec) (k : ℤ) : gridPosition n k = McCellList.cellCoord n k := rfl

theorem rank_range {n c : IVec} (hc : InGrid n c) :
    0 ≤ gridRank n c ∧ gridRank n c < n 0 * n 1 * n 2 := by
  have := McCellList.cellIndex_range (n := n) (c := c) hc
  refine ⟨this.1, ?_⟩
  have h2 := this.2
  rw [gridRank_eq]
  linarith [h2, show n 1 * n 2 * n 0 = n 0 * n 1 * n 2 by ring]

theorem position_rank {n c : IVec} (hc : InGrid n c) : gridPosition n (gridRank n c) = c :=
  McCellList.cellCoord_cellIndex hc

theorem rank_inj {n c d : IVec} (hc : InGrid n c) (hd : InGrid n d)
    (h : gridRank n c = gridRank n d) : c = d := by
  rw [← position_rank hc, ← position_rank hd, h]

theorem rank_position {n : IVec} (hn : ∀ i, 0 < n i) {k : ℤ} (h0 : 0 ≤ k)
    (h1 : k < n 0 * n 1 * n 2) :
    InGrid n (gridPosition n k) ∧ gridRank n (gridPosition n k) = k := by
  obtain ⟨c, hc, hk⟩ := McCellList.exists_coord hn h0
    (show k < n 1 * n 2 * n 0 by linarith [show n 1 * n 2 * n 0 = n 0 * n 1 * n 2 by ring])
  have hk' : gridRank n c = k := hk.symm
  rw [← hk', position_rank hc]
  exact ⟨hc, rfl⟩

/-- Wrapping of a coordinate that is at most one step outside the grid. -/
theorem gridShift_spec {n c : ℤ} (hn : 0 < n) (hc : 0 ≤ c ∧ c < n) (j : Fin 2) :
    0 ≤ (gridShift n (c + incr j)).2 ∧ (gridShift n (c + incr j)).2 < n ∧
    (gridShift n (c + incr j)).2 = c + incr j - (gridShift n (c + incr j)).1 * n ∧
    ((gridShift n (c + incr j)).1 = 0 ∨ (gridShift n (c + incr j)).1 = incr j) := by
  obtain ⟨h0, h1⟩ := hc
  by_cases hj : j = 0
  · subst hj
    have e : incr 0 = 1 := rfl
    rw [e]
    by_cases hlt : c + 1 < n
    · have hq : (c + 1).tdiv n = 0 := Int.tdiv_eq_zero_of_lt (by omega) hlt
      have hs : gridShift n (c + 1) = (0, c + 1) := by
        simp only [gridShift]; rw [if_pos (by omega), hq]; simp
      rw [hs]; refine ⟨by simp; omega, by simpa using hlt, by simp, Or.inl rfl⟩
    · have hc' : c + 1 = n := by omega
      have hq : (c + 1).tdiv n = 1 := by rw [hc']; exact Int.tdiv_self (by omega)
      have hs : gridShift n (c + 1) = (1, 0) := by
        simp only [gridShift]; rw [if_pos (by omega), hq]; simp [hc']
      rw [hs]; refine ⟨by simp, by simpa using hn, by simp [hc'], Or.inr rfl⟩
  · have hj1 : j = 1 := by omega
    subst hj1
    have e : incr 1 = -1 := rfl
    rw [e]
    by_cases h : 0 < c
    · have hq : (c + -1).tdiv n = 0 := Int.tdiv_eq_zero_of_lt (by omega) (by omega)
      have hs : gridShift n (c + -1) = (0, c + -1) := by
        simp only [gridShift]; rw [if_pos (by omega), hq]; simp
      rw [hs]; refine ⟨by simp; omega, by simp; omega, by simp, Or.inl rfl⟩
    · have hc' : c = 0 := by omega
      subst hc'
      have hs : gridShift n (0 + -1) = (-1, n - 1) := by
        simp only [gridShift]; rw [if_neg (by omega)]; simp; omega
      rw [hs]; refine ⟨by simp; omega, by simp, by simp; omega, Or.inr rfl⟩

theorem conj_conj (j : Fin 2) : conj (conj j) = j := by
  fin_cases j <;> rfl

theorem incr_conj (j : Fin 2) : incr (conj j) = - incr j := by
  fin_cases j <;> rfl

theorem incr_sq (j : Fin 2) : incr j = 1 ∨ incr j = -1 := by
  fin_cases j
  · exact Or.inl rfl
  · exact Or.inr rfl

/-- Wrapped coordinates that agree modulo the grid dimension are equal. -/
theorem wrap_unique {n a b k : ℤ} (ha : 0 ≤ a ∧ a < n) (hb : 0 ≤ b ∧ b < n)
    (h : a - b = k * n) : a = b ∧ k = 0 := by
  have hk : k = 0 := by
    by_contra hne
    rcases lt_or_gt_of_ne hne with h' | h'
    · have : k * n ≤ -1 * n := mul_le_mul_of_nonneg_right (by omega) (by omega)
      omega
    · have : 1 * n ≤ k * n := mul_le_mul_of_nonneg_right (by omega) (by omega)
      omega
  subst hk
  exact ⟨by simpa [sub_eq_zero] using h, rfl⟩

/-- Successful initialization. -/
theorem init_some {n : IVec} {size k : ℤ} {d : Domain} (h : init n size k = some d) :
    (∀ i, 0 < n i) ∧ n 0 * n 1 * n 2 = size ∧ d.dims = n ∧ d.coords = gridPosition n k ∧
    (∀ i j, d.shift i j = (gridShift (n i) (d.coords i + incr j)).1) ∧
    (∀ i j, d.source i j =
      gridRank n (Function.update d.coords i (gridShift (n i) (d.coords i + incr j)).2)) ∧
    (∀ i j, d.dest i j = d.source i (conj j)) := by
  simp only [init] at h
  split at h
  · exact absurd h (by simp)
  split at h
  · exact absurd h (by simp)
  rename_i h1 h2
  push Not at h1 h2
  simp only [Option.some.injEq] at h
  subst h
  refine ⟨fun i => ?_, h2, rfl, rfl, fun _ _ => rfl, fun _ _ => rfl, fun _ _ => rfl⟩
  fin_cases i
  · exact h1.1
  · exact h1.2.1
  · exact h1.2.2

/-! ## C14 -/

/-- **C14.** Consider any processor grid and two processors, each initialized with its own
rank. For each of the six transfers `(i, j)`: the destination of every processor is a rank of
the grid; `q` is the destination of `p` iff `p` is the source of `q`; then the grid positions
of the two agree in the other directions, and differ by one step in direction `i` up to the
multiple `shift` of the grid dimension that the receiver applies; `shift` is 0 or one step. -/
theorem C14_neighbours (n : IVec) (size p q : ℤ) (dp dq : Domain)
    (hp : 0 ≤ p ∧ p < size) (hq : 0 ≤ q ∧ q < size)
    (hdp : init n size p = some dp) (hdq : init n size q = some dq)
    (i : Fin 3) (j : Fin 2) :
    (0 ≤ dp.dest i j ∧ dp.dest i j < size) ∧ (0 ≤ dp.source i j ∧ dp.source i j < size) ∧
    (dp.dest i j = q ↔ dq.source i j = p) ∧
    (dp.dest i j = q →
      (∀ i', i' ≠ i → dp.coords i' = dq.coords i') ∧
      dp.coords i = dq.coords i + (if j = 0 then 1 else -1) - dq.shift i j * n i ∧
      (dq.shift i j = 0 ∨ dq.shift i j = (if j = 0 then 1 else -1)) ∧
      (dq.shift i j ≠ 0 ↔ (j = 0 ∧ dq.coords i = n i - 1) ∨ (j = 1 ∧ dq.coords i = 0))) := by
  obtain ⟨hn, hsz, -, cp, -, sp, dstp⟩ := init_some hdp
  obtain ⟨-, -, -, cq, shq, sq, -⟩ := init_some hdq
  subst hsz
  obtain ⟨gp, rp⟩ := rank_position hn hp.1 hp.2
  obtain ⟨gq, rq⟩ := rank_position hn hq.1 hq.2
  rw [← cp] at gp rp
  rw [← cq] at gq rq
  -- the neighbour's position is in the grid
  have inGrid : ∀ (c : IVec) (j : Fin 2), InGrid n c →
      InGrid n (Function.update c i (gridShift (n i) (c i + incr j)).2) := by
    intro c j hc i'
    by_cases h : i' = i
    · subst h
      rw [Function.update_self]
      have := gridShift_spec (hn i') (hc i') j
      exact ⟨this.1, this.2.1⟩
    · rw [Function.update_of_ne h]; exact hc i'
  have dest_range : 0 ≤ dp.dest i j ∧ dp.dest i j < n 0 * n 1 * n 2 := by
    rw [dstp, sp]; exact rank_range (inGrid _ _ gp)
  have source_range : 0 ≤ dp.source i j ∧ dp.source i j < n 0 * n 1 * n 2 := by
    rw [sp]; exact rank_range (inGrid _ _ gp)
  -- both relations say that the coordinates are one step apart
  have key : ∀ (c d : IVec) (j : Fin 2), InGrid n c → InGrid n d →
      Function.update c i (gridShift (n i) (c i + incr (conj j))).2 = d →
      Function.update d i (gridShift (n i) (d i + incr j)).2 = c := by
    intro c d j hc hd h
    funext i'
    by_cases hi : i' = i
    · subst hi
      rw [Function.update_self]
      have h1 := congrFun h i'
      rw [Function.update_self] at h1
      obtain ⟨a1, a2, a3, -⟩ := gridShift_spec (hn i') (hc i') (conj j)
      obtain ⟨b1, b2, b3, -⟩ := gridShift_spec (hn i') (hd i') j
      refine (wrap_unique (k := - (gridShift (n i') (d i' + incr j)).1
        - (gridShift (n i') (c i' + incr (conj j))).1) ⟨b1, b2⟩ (hc i') ?_).1
      rw [b3, ← h1, a3, incr_conj]; ring
    · rw [Function.update_of_ne hi]
      have h1 := congrFun h i'
      rw [Function.update_of_ne hi] at h1
      exact h1.symm
  have iff1 : dp.dest i j = q ↔
      Function.update dp.coords i (gridShift (n i) (dp.coords i + incr (conj j))).2 = dq.coords := by
    rw [dstp, sp]
    constructor
    · intro h
      exact rank_inj (inGrid _ _ gp) gq (by rw [h, rq])
    · intro h; rw [h, rq]
  have iff2 : dq.source i j = p ↔
      Function.update dq.coords i (gridShift (n i) (dq.coords i + incr j)).2 = dp.coords := by
    rw [sq]
    constructor
    · intro h
      exact rank_inj (inGrid _ _ gq) gp (by rw [h, rp])
    · intro h; rw [h, rp]
  have iff3 : dp.dest i j = q ↔ dq.source i j = p := by
    rw [iff1, iff2]
    constructor
    · exact key _ _ j gp gq
    · intro h
      exact key _ _ (conj j) gq gp (by rw [conj_conj]; exact h)
  refine ⟨dest_range, source_range, iff3, ?_⟩
  intro h
  have h2 := iff2.1 (iff3.1 h)
  obtain ⟨b1, b2, b3, b4⟩ := gridShift_spec (hn i) (gq i) j
  have hi : dp.coords i = (gridShift (n i) (dq.coords i + incr j)).2 := by
    rw [← h2, Function.update_self]
  have e : incr j = if j = 0 then 1 else -1 := rfl
  rw [shq]
  refine ⟨?_, ?_, ?_, ?_⟩
  · intro i' hi'
    rw [← h2, Function.update_of_ne hi']
  · rw [hi, b3, e]
  · rw [← e]; exact b4
  · have hni := hn i
    have hq1 := gq i
    by_cases hj : j = 0
    · subst hj
      have e1 : incr 0 = 1 := rfl
      rw [e1] at b1 b2 b3 b4 ⊢
      constructor
      · intro hne
        rcases b4 with b4 | b4
        · exact absurd b4 hne
        · left; refine ⟨rfl, ?_⟩
          rw [b4] at b3; omega
      · rintro (⟨-, hh⟩ | ⟨hh, -⟩)
        · intro h0; rw [h0] at b3; omega
        · exact absurd hh (by decide)
    · have hj1 : j = 1 := by omega
      subst hj1
      have e1 : incr 1 = -1 := rfl
      rw [e1] at b1 b2 b3 b4 ⊢
      constructor
      · intro hne
        rcases b4 with b4 | b4
        · exact absurd b4 hne
        · right; refine ⟨rfl, ?_⟩
          rw [b4] at b3; omega
      · rintro (⟨hh, -⟩ | ⟨-, hh⟩)
        · exact absurd hh (by decide)
        · intro h0; rw [h0] at b3; omega

/-- **C14, no message to oneself.** The partners of a processor differ from itself in the
directions in which messages are sent (grid dimension greater than one), so that the
preconditions of the transfer hold; in the other directions the partner is the processor. -/
theorem C14_partner_is_other (n : IVec) (size p : ℤ) (d : Domain) (hp : 0 ≤ p ∧ p < size)
    (hd : init n size p = some d) (i : Fin 3) (j : Fin 2) :
    (1 < n i → d.dest i j ≠ p ∧ d.source i j ≠ p) ∧
    (n i = 1 → d.dest i j = p ∧ d.source i j = p ∧ d.shift i j = if j = 0 then 1 else -1) := by
  obtain ⟨h1, h2, h3, h4⟩ := C14_neighbours n size p p d d hp hp hd hd i j
  obtain ⟨hn, hsz, -, cp, -, -, dstp⟩ := init_some hd
  subst hsz
  obtain ⟨gp, rp⟩ := rank_position hn hp.1 hp.2
  rw [← cp] at gp rp
  constructor
  · intro hlt
    have hne : d.dest i j ≠ p := by
      intro he
      obtain ⟨-, e1, e2, -⟩ := h4 he
      have hz : d.shift i j * n i = if j = 0 then 1 else -1 := by linarith
      split at hz
      · rename_i hj
        rcases e2 with e2 | e2
        · rw [e2] at hz; omega
        · rw [if_pos hj] at e2; rw [e2] at hz; omega
      · rename_i hj
        rcases e2 with e2 | e2
        · rw [e2] at hz; omega
        · rw [if_neg hj] at e2; rw [e2] at hz; omega
    exact ⟨hne, fun he => hne (h3.2 he)⟩
  · intro h1n
    -- the partner's wrapped coordinate is 0
    obtain ⟨-, -, -, -, shp, sp, -⟩ := init_some hd
    have hself : ∀ j, d.source i j = p := by
      intro j
      rw [sp]
      obtain ⟨b1, b2, -, -⟩ := gridShift_spec (hn i) (gp i) j
      have hc := gp i
      rw [h1n] at b2 hc
      have : Function.update d.coords i (gridShift (n i) (d.coords i + incr j)).2 = d.coords := by
        funext i'
        by_cases hi : i' = i
        · subst hi; rw [Function.update_self, h1n]; rw [h1n] at b1; omega
        · rw [Function.update_of_ne hi]
      rw [this, rp]
    have hdst : d.dest i j = p := by rw [dstp]; exact hself _
    refine ⟨hdst, hself j, ?_⟩
    obtain ⟨-, e1, e2, -⟩ := h4 hdst
    rw [h1n] at e1
    linarith

/-- Four by one by two processors: rank 1 is at `(0, 0, 1)`; its destination downwards in
direction 0 is rank 7 at `(3, 0, 1)`, which applies the shift 1. -/
example : (init ![4, 1, 2] 8 1).map (fun d => (d.dest 0 0, d.dest 1 0, d.source 2 1)) = some (7, 1, 0)
    ∧ (init ![4, 1, 2] 8 7).map (fun d => (d.source 0 0, d.shift 0 0, d.shift 1 1)) = some (1, 1, -1) := by
  decide

/-! ## C15 -/

theorem in_iff {n : ℤ} (hn : 0 < n) (x : ℝ) (c : ℤ) :
    (¬ (x < (c : ℝ) * (1 / (n : ℝ))) ∧ ¬ (x ≥ ((c : ℝ) + 1) * (1 / (n : ℝ)))) ↔
    ⌊x * n⌋ = c := by
  have hn' : (0 : ℝ) < (n : ℝ) := by exact_mod_cast hn
  rw [Int.floor_eq_iff, mul_one_div, mul_one_div, not_lt, ge_iff_le, not_le, div_le_iff₀ hn',
    lt_div_iff₀ hn']

theorem owner_coord (n : ℤ) (x : ℝ) : x / (1 / (n : ℝ)) = x * n := by
  rw [div_div_eq_mul_div, div_one]

theorem ownerRank_of {d : Domain} {x : Vec} {r : IVec}
    (ht : (fun i => trunc (x i / (1 / (d.dims i : ℝ)))) = r) (hr : InGrid d.dims r) :
    d.ownerRank x = some (gridRank d.dims r) := by
  subst ht
  simp only [Domain.ownerRank]
  rw [if_pos]
  intro i
  have := hr i
  simp only at this
  omega

/-- **C15.** For every position with coordinates in `[0, 1)` and every grid: the owner query
succeeds on every processor with the same rank, this is the rank of a processor of the grid,
and a processor reports the position to be in its domain iff it has this rank. -/
theorem C15_unique_owner (n : IVec) (size : ℤ) (x : Vec) (hx : ∀ i, 0 ≤ x i ∧ x i < 1)
    (hn : ∀ i, 0 < n i) (hsz : n 0 * n 1 * n 2 = size) :
    ∃ o, 0 ≤ o ∧ o < size ∧ ∀ p d, 0 ≤ p → p < size → init n size p = some d →
      d.ownerRank x = some o ∧ (d.isInDomain x ↔ p = o) := by
  subst hsz
  let r : IVec := fun i => ⌊x i * (n i : ℝ)⌋
  have hr : InGrid n r := by
    intro i
    have hn' : (0 : ℝ) < (n i : ℝ) := by exact_mod_cast hn i
    refine ⟨Int.floor_nonneg.2 (mul_nonneg (hx i).1 hn'.le), ?_⟩
    rw [Int.floor_lt]
    nlinarith [(hx i).2]
  refine ⟨gridRank n r, (rank_range hr).1, (rank_range hr).2, ?_⟩
  intro p d hp0 hp1 hd
  obtain ⟨-, -, hdims, hc, -⟩ := init_some hd
  obtain ⟨gp, rp⟩ := rank_position hn hp0 hp1
  rw [← hc] at gp rp
  have ht : (fun i => trunc (x i / (1 / (d.dims i : ℝ)))) = r := by
    funext i
    rw [hdims, owner_coord, trunc_of_nonneg]
    have hn' : (0 : ℝ) < (n i : ℝ) := by exact_mod_cast hn i
    exact mul_nonneg (hx i).1 hn'.le
  constructor
  · rw [ownerRank_of ht (by rw [hdims]; exact hr), hdims]
  · have h1 : d.isInDomain x ↔ r = d.coords := by
      simp only [Domain.isInDomain]
      rw [hdims]
      constructor
      · intro h; funext i; exact (in_iff (hn i) (x i) (d.coords i)).1 (h i)
      · intro h i; exact (in_iff (hn i) (x i) (d.coords i)).2 (congrFun h i)
    rw [h1]
    constructor
    · intro h; rw [h, rp]
    · intro h
      exact rank_inj hr gp (by rw [rp, h])

/-- **C15, rejected positions (restricted).** The owner query throws exactly if some
coordinate is at least 1 or at most minus one domain width. (Missing: coordinates between
minus one domain width and 0, see `C15_negative_accepted`.) -/
theorem C15_rejects_partial (n : IVec) (size p : ℤ) (d : Domain) (x : Vec)
    (hd : init n size p = some d) :
    d.ownerRank x = none ↔ ∃ i, 1 ≤ x i ∨ x i ≤ - (1 / (n i : ℝ)) := by
  obtain ⟨hn, -, hdims, -⟩ := init_some hd
  simp only [Domain.ownerRank, hdims]
  have hcoord : ∀ i, ((trunc (x i / (1 / (n i : ℝ))) < 0 ∨ trunc (x i / (1 / (n i : ℝ))) ≥ n i) ↔
      (1 ≤ x i ∨ x i ≤ - (1 / (n i : ℝ)))) := by
    intro i
    have hn' : (0 : ℝ) < (n i : ℝ) := by exact_mod_cast hn i
    rw [owner_coord]
    by_cases h0 : 0 ≤ x i
    · rw [trunc_of_nonneg (mul_nonneg h0 hn'.le)]
      have e1 : ¬ (⌊x i * (n i : ℝ)⌋ < 0) := not_lt.2 (Int.floor_nonneg.2 (mul_nonneg h0 hn'.le))
      have e2 : ¬ (x i ≤ - (1 / (n i : ℝ))) := by
        have : (0 : ℝ) < 1 / (n i : ℝ) := by positivity
        linarith
      simp only [e1, e2, false_or, or_false, ge_iff_le, Int.le_floor]
      constructor
      · intro h; by_contra hlt; push Not at hlt; nlinarith
      · intro h; nlinarith
    · push Not at h0
      have hneg : x i * (n i : ℝ) < 0 := mul_neg_of_neg_of_pos h0 hn'
      rw [trunc_of_neg hneg]
      have e1 : ¬ (⌈x i * (n i : ℝ)⌉ ≥ n i) := by
        have : ⌈x i * (n i : ℝ)⌉ ≤ 0 := Int.ceil_le.2 (by exact_mod_cast hneg.le)
        have := hn i
        omega
      have e2 : ¬ (1 ≤ x i) := by linarith
      simp only [e1, e2, false_or, or_false]
      have : ⌈x i * (n i : ℝ)⌉ < 0 ↔ ⌈x i * (n i : ℝ)⌉ ≤ -1 := by omega
      rw [this, Int.ceil_le, ← neg_div, le_div_iff₀ hn']
      push_cast; rfl
  constructor
  · intro h
    split at h
    · exact absurd h (by simp)
    · rename_i hh
      push Not at hh
      obtain ⟨i, hi⟩ := hh
      exact ⟨i, (hcoord i).1 hi⟩
  · rintro ⟨i, hi⟩
    rw [if_neg]
    intro hh
    exact hh i ((hcoord i).2 hi)

/-- **C15 fails for small negative coordinates**: on a grid of two processors the position
`(-1/4, 0, 0)` is attributed to the processor of rank 0, in whose domain it does not lie. -/
theorem C15_negative_accepted :
    ∃ d, init ![2, 1, 1] 2 0 = some d ∧ d.ownerRank ![-1/4, 0, 0] = some 0 ∧
      ¬ d.isInDomain ![-1/4, 0, 0] := by
  obtain ⟨d, hd⟩ : ∃ d, init ![2, 1, 1] 2 0 = some d := ⟨_, rfl⟩
  obtain ⟨-, -, hdims, hc, -⟩ := init_some hd
  have hc0 : d.coords 0 = 0 := by rw [hc]; decide
  refine ⟨d, hd, ?_, ?_⟩
  · have ht : (fun i => trunc ((![-1/4, 0, 0] : Vec) i / (1 / ((d.dims i : ℤ) : ℝ)))) =
        (fun _ => 0) := by
      funext i
      rw [owner_coord, hdims]
      fin_cases i
      · show trunc (-1 / 4 * ((2 : ℤ) : ℝ)) = 0
        rw [trunc_of_neg (by norm_num), Int.ceil_eq_zero_iff]
        constructor <;> norm_num
      · show trunc (0 * ((1 : ℤ) : ℝ)) = 0
        rw [zero_mul, trunc_of_nonneg le_rfl]; simp
      · show trunc (0 * ((1 : ℤ) : ℝ)) = 0
        rw [zero_mul, trunc_of_nonneg le_rfl]; simp
    rw [ownerRank_of ht (by rw [hdims]; intro i; fin_cases i <;> decide), hdims]
    simp [gridRank]
  · intro h
    apply (h 0).1
    rw [hc0]
    show (-1/4 : ℝ) < _
    rw [Int.cast_zero, zero_mul]; norm_num

/-- The hypotheses of `C15_unique_owner` for a grid of twelve processors. -/
example : (∀ i, 0 < (![2, 3, 2] : IVec) i) ∧ (![2, 3, 2] : IVec) 0 * (![2, 3, 2] : IVec) 1 * (![2, 3, 2] : IVec) 2 = 12 ∧
    (∀ i, 0 ≤ (![1/2, 2/3, 0] : Vec) i ∧ (![1/2, 2/3, 0] : Vec) i < 1) := by
  refine ⟨by decide, by decide, fun i => ?_⟩
  fin_cases i <;> constructor <;> norm_num [Matrix.cons_val_zero, Matrix.cons_val_one]

end Verif.DdDomain
