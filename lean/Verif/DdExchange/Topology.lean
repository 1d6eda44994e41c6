import Verif.DdExchange.Model
import Verif.DdDomain.Props

/-! Neighbours of the model of the exchange are those of `Domain`. -/

set_option autoImplicit false

namespace Verif.DdExchange

open Verif.Boundary Verif.DdChem Verif.DdDomain

variable {N : Fin 3 → ℕ}

theorem down_up {n : ℕ} (c : Fin n) : down (up c) = c := by
  apply Fin.ext
  have := c.2
  unfold up down
  by_cases h : c.val + 1 < n
  · simp [h]
  · simp [h]; omega

theorem up_down {n : ℕ} (c : Fin n) : up (down c) = c := by
  apply Fin.ext
  have := c.2
  unfold up down
  by_cases h : c.val = 0
  · simp only [if_pos h]
    rw [dif_neg (by omega)]; exact h.symm
  · simp only [if_neg h]
    rw [dif_pos (by omega)]; simp only; omega

theorem source_dest (d : Dir) (p : Proc N) : source d (dest d p) = p := by
  obtain ⟨i, j⟩ := d
  simp only [source, dest, Function.update_self, Function.update_idem]
  by_cases h : j = 0 <;> simp [h, up_down, down_up]

theorem dest_source (d : Dir) (p : Proc N) : dest d (source d p) = p := by
  obtain ⟨i, j⟩ := d
  simp only [source, dest, Function.update_self, Function.update_idem]
  by_cases h : j = 0 <;> simp [h, up_down, down_up]

/-- The source map is a permutation of the processors. -/
def sourceEquiv (d : Dir) : Proc N ≃ Proc N := ⟨source d, dest d, dest_source d, source_dest d⟩

/-- Grid coordinates of a processor as integers. -/
def coordsOf (p : Proc N) : IVec := fun i => ((p i).val : ℤ)

/-- Rank of a processor. -/
def rankOf (p : Proc N) : ℤ := gridRank (fun i => (N i : ℤ)) (coordsOf p)

theorem coordsOf_inGrid (p : Proc N) : InGrid (fun i => (N i : ℤ)) (coordsOf p) := by
  intro i
  have := (p i).2
  simp only [coordsOf]; omega

theorem up_wrap {n : ℕ} (c : Fin n) :
    ((up c).val : ℤ) = (gridShift (n : ℤ) ((c.val : ℤ) + 1)).2 ∧
    (if c.val + 1 = n then (1 : ℤ) else 0) = (gridShift (n : ℤ) ((c.val : ℤ) + 1)).1 := by
  have h2 := c.2
  simp only [gridShift]
  rw [if_pos (by omega)]
  by_cases h : c.val + 1 < n
  · have hq : ((c.val : ℤ) + 1).tdiv n = 0 := Int.tdiv_eq_zero_of_lt (by omega) (by omega)
    rw [hq, if_neg (by omega)]; simp [up, h]
  · have hc : (c.val : ℤ) + 1 = n := by omega
    have hq : ((c.val : ℤ) + 1).tdiv n = 1 := by rw [hc]; exact Int.tdiv_self (by omega)
    rw [hq, if_pos (by omega), hc]; simp [up, h]

theorem down_wrap {n : ℕ} (c : Fin n) :
    ((down c).val : ℤ) = (gridShift (n : ℤ) ((c.val : ℤ) + -1)).2 ∧
    (if c.val = 0 then (-1 : ℤ) else 0) = (gridShift (n : ℤ) ((c.val : ℤ) + -1)).1 := by
  have h2 := c.2
  simp only [gridShift]
  by_cases h : c.val = 0
  · rw [if_neg (by omega), h]; simp [down, h]; omega
  · rw [if_pos (by omega)]
    have hq : ((c.val : ℤ) + -1).tdiv n = 0 := Int.tdiv_eq_zero_of_lt (by omega) (by omega)
    rw [hq, if_neg (by omega)]; simp [down, h]; omega

/-- **Link to `Domain`.** On every processor, the source, destination, shift and bounds used in
the model of the exchange are those computed by `Domain::initialize`. -/
theorem topology_of_domain (p : Proc N) (size : ℤ) (dom : Domain)
    (hd : init (fun i => (N i : ℤ)) size (rankOf p) = some dom) (i : Fin 3) (j : Fin 2) :
    dom.source i j = rankOf (source (i, j) p) ∧ dom.dest i j = rankOf (dest (i, j) p) ∧
    dom.shift i j = shift (i, j) p ∧ dom.bound i j = bound p i j := by
  obtain ⟨-, -, hdims, hc, hs, hsrc, hdst⟩ := init_some hd
  have hc' : dom.coords = coordsOf p := by rw [hc]; exact position_rank (coordsOf_inGrid p)
  have hcoord : ∀ (c : Fin (N i)), coordsOf (Function.update p i c) =
      Function.update (coordsOf p) i (c.val : ℤ) := by
    intro c
    funext i'
    by_cases h : i' = i
    · subst h; simp [coordsOf]
    · simp [coordsOf, h]
  have src : ∀ j, dom.source i j = rankOf (source (i, j) p) := by
    intro j
    rw [hsrc, hc', rankOf, source, hcoord]
    congr 2
    by_cases h : j = 0
    · subst h; exact (up_wrap (p i)).1.symm
    · have h1 : j = 1 := by omega
      subst h1; exact (down_wrap (p i)).1.symm
  refine ⟨src j, ?_, ?_, ?_⟩
  · rw [hdst, src]
    congr 1
    by_cases h : j = 0
    · subst h; rfl
    · have h1 : j = 1 := by omega
      subst h1; rfl
  · rw [hs, hc']
    by_cases h : j = 0
    · subst h; exact (up_wrap (p i)).2.symm
    · have h1 : j = 1 := by omega
      subst h1; exact (down_wrap (p i)).2.symm
  · simp only [Domain.bound, bound, hc', hdims, coordsOf]
    push_cast; rfl

/-- Every rank belongs to a processor of the model. -/
theorem rank_surjective (hN : ∀ i, 0 < N i) (k : ℤ) (h0 : 0 ≤ k)
    (h1 : k < (N 0 : ℤ) * N 1 * N 2) : ∃ p : Proc N, rankOf p = k := by
  obtain ⟨g, r⟩ := rank_position (n := fun i => (N i : ℤ)) (fun i => by exact_mod_cast hN i) h0 h1
  refine ⟨fun i => ⟨(gridPosition (fun i => (N i : ℤ)) k i).toNat, ?_⟩, ?_⟩
  · have := g i; simp only at this; omega
  · have : coordsOf (N := N) (fun i => ⟨(gridPosition (fun i => (N i : ℤ)) k i).toNat, by
        have := g i; simp only at this; omega⟩) = gridPosition (fun i => (N i : ℤ)) k := by
      funext i
      have := g i
      simp only [coordsOf]; omega
    rw [rankOf, this, r]

theorem rankOf_injective : Function.Injective (rankOf (N := N)) := by
  intro p q h
  have := rank_inj (coordsOf_inGrid p) (coordsOf_inGrid q) h
  funext i
  apply Fin.ext
  have := congrFun this i
  simpa [coordsOf] using this

/-- The unrolled coordinate: moving to the source of transfer `j = 0` adds one step, up to the
shift times the dimension. -/
theorem up_unroll {n : ℕ} (c : Fin n) :
    ((up c).val : ℤ) = (c.val : ℤ) + 1 - (if c.val + 1 = n then (1 : ℤ) else 0) * n := by
  have := c.2
  unfold up
  by_cases h : c.val + 1 < n
  · rw [dif_pos h, if_neg (by omega)]; simp
  · have : c.val + 1 = n := by omega
    rw [dif_neg h, if_pos this]; simp; omega

theorem down_unroll {n : ℕ} (c : Fin n) :
    ((down c).val : ℤ) = (c.val : ℤ) - 1 - (if c.val = 0 then (-1 : ℤ) else 0) * n := by
  have := c.2
  unfold down
  by_cases h : c.val = 0
  · rw [if_pos h, if_pos h, h]; simp; omega
  · rw [if_neg h, if_neg h]; simp; omega

end Verif.DdExchange
