/-
Reversibility of the rebridging move.
-/
import Verif.Rebridge.Energy

set_option autoImplicit false
set_option linter.unusedSectionVars false

namespace Verif.Rebridge

open Verif.Boundary
open scoped ENNReal

variable {n : ℕ} [NeZero n]

/-! ### Candidates -/

theorem mem_scan {w : World} {r : ZMod n → Vec} {ia ic : ZMod n} :
    ic ∈ w.scan r ia ↔ w.inRange (w.dsq (r ia) (r (ia + 1))) ∧
      (∃ i, i < n - 3 ∧ ic = ia + 1 + ((i + 1 : ℕ) : ZMod n)) ∧ w.fits r ia ic := by
  classical
  unfold World.scan
  split
  · rename_i h
    simp only [List.mem_filter, List.mem_map, List.mem_range, decide_eq_true_eq]
    constructor
    · rintro ⟨⟨i, hi, rfl⟩, hf⟩; exact ⟨h, ⟨i, hi, rfl⟩, hf⟩
    · rintro ⟨-, ⟨i, hi, rfl⟩, hf⟩; exact ⟨⟨i, hi, rfl⟩, hf⟩
  · rename_i h
    simp [h]

theorem nodup_scan (w : World) (r : ZMod n → Vec) (ia : ZMod n) : (w.scan r ia).Nodup := by
  classical
  unfold World.scan
  split
  · refine List.Nodup.filter _ (List.Nodup.map_on ?_ List.nodup_range)
    intro i hi j hj h
    rw [List.mem_range] at hi hj
    have := off_inj (ia + 1) (s := i + 1) (t := j + 1) (by omega) (by omega) h
    omega
  · exact List.nodup_nil

/-- Candidates fit into the list that the code allocates for them. -/
theorem length_scan (w : World) (r : ZMod n → Vec) (ia : ZMod n) :
    (w.scan r ia).length ≤ n - 3 := by
  classical
  unfold World.scan
  split
  · refine (List.length_filter_le _ _).trans ?_
    simp
  · exact Nat.zero_le _

/-- The places `ia, ib, ic, id` after the reversal. -/
theorem corners {ia ic : ZMod n} {i : ℕ} (hi : i < n - 3)
    (hc : ic = ia + 1 + ((i + 1 : ℕ) : ZMod n)) (m : ZMod n → ZMod n)
    (hm : m = mirror (arc ia ic).1 (arc ia ic).2) :
    (m ia = ia ∧ m (ia + 1) = ic ∧ m ic = ia + 1 ∧ m (ic + 1) = ic + 1) ∨
    (m ia = ic + 1 ∧ m (ia + 1) = ia + 1 ∧ m ic = ic ∧ m (ic + 1) = ia) := by
  obtain ⟨hb, hd⟩ := cand_off hi hc
  have gen : ∀ (lo : ZMod n) (L : ℕ), L + 2 ≤ n → mirror lo L (lo - 1) = lo - 1 ∧
      mirror lo L lo = lo + (L : ℕ) ∧ mirror lo L (lo + (L : ℕ)) = lo ∧
      mirror lo L (lo + (L : ℕ) + 1) = lo + (L : ℕ) + 1 := by
    intro lo L hL
    have e : mirror lo L lo = lo + (L : ℕ) := by
      have := mirror_in lo (n := n) (L := L) (t := 0) (by omega) (by omega)
      rwa [Nat.cast_zero, add_zero, Nat.sub_zero] at this
    refine ⟨?_, e, ?_, ?_⟩
    · rw [← off_pred lo (t := n - 1) (by omega)]
      exact mirror_out lo (by omega) (by omega)
    · rw [← e, mirror_mirror lo (by omega)]
    · rw [off_succ]; exact mirror_out lo (by omega) (by omega)
  unfold arc at hm
  split at hm
  · left
    have := gen (ia + 1) (ic - (ia + 1)).val (by omega)
    rw [ZMod.natCast_zmod_val, add_sub_cancel_right, add_sub_cancel] at this
    subst hm
    exact this
  · right
    have := gen (ic + 1) (ia - (ic + 1)).val (by omega)
    rw [ZMod.natCast_zmod_val, add_sub_cancel_right, add_sub_cancel] at this
    subst hm
    exact ⟨this.2.2.1, this.2.2.2, this.1, this.2.1⟩

/-- Neighbours after the reversal are neighbours before, or joined by one of the new bonds. -/
theorem adjacent {lo : ZMod n} {L : ℕ} (hL : L + 2 ≤ n) (x : ZMod n) :
    mirror lo L (x + 1) = mirror lo L x + 1 ∨ mirror lo L x = mirror lo L (x + 1) + 1 ∨
    (mirror lo L x = lo - 1 ∧ mirror lo L (x + 1) = lo + (L : ℕ)) ∨
    (mirror lo L x = lo ∧ mirror lo L (x + 1) = lo + (L : ℕ) + 1) := by
  obtain ⟨t, ht, rfl, -⟩ := offset lo x
  rcases Nat.lt_trichotomy t L with h | h | h
  · right; left
    rw [off_succ, mirror_in lo (by omega) (by omega), mirror_in lo (by omega) (by omega), off_succ]
    congr 2; omega
  · right; right; right
    subst h
    rw [off_succ, mirror_in lo (by omega) (le_refl _), mirror_out lo (by omega) (by omega),
      Nat.sub_self, Nat.cast_zero, add_zero]
    exact ⟨rfl, rfl⟩
  · by_cases h2 : t + 1 = n
    · right; right; left
      rw [mirror_out lo ht h, off_pred lo h2, sub_add_cancel]
      refine ⟨rfl, ?_⟩
      have := mirror_in lo (n := n) (L := L) (t := 0) (by omega) (by omega)
      rwa [Nat.cast_zero, add_zero, Nat.sub_zero] at this
    · left
      rw [off_succ, mirror_out lo ht h, mirror_out lo (by omega) (by omega), off_succ]

/-- The ring closes without winding around the periodic cell: there are unwrapped positions `R`
whose differences are the separations of neighbours, and also those of all atoms that are within the
range of the move. -/
structure World.Flat (w : World) (r R : ZMod n → Vec) : Prop where
  bond : ∀ x, w.dvec (r (x + 1)) (r x) = R (x + 1) - R x
  back : ∀ x, w.dvec (r x) (r (x + 1)) = R x - R (x + 1)
  bondSq : ∀ x, w.dsq (r x) (r (x + 1)) = sq (R x - R (x + 1))
  near : ∀ x y, w.inRange (sq (R x - R y)) →
    w.dvec (r x) (r y) = R x - R y ∧ w.dsq (r x) (r y) = sq (R x - R y)

theorem unwrap_flat {w : World} {r R : ZMod n → Vec} (h : w.Flat r R) :
    ∀ i : ℕ, w.unwrap r i = R ((i : ℕ) : ZMod n) + (r 0 - R 0)
  | 0 => by rw [World.unwrap, Nat.cast_zero]; abel
  | i + 1 => by
    rw [World.unwrap, unwrap_flat h i]
    have := h.bond ((i : ℕ) : ZMod n)
    rw [show ((i : ℕ) : ZMod n) + 1 = ((i + 1 : ℕ) : ZMod n) by push_cast; ring] at this
    rw [this]; abel

theorem site_flat {w : World} {r R : ZMod n → Vec} (h : w.Flat r R) (x y : ZMod n) :
    w.site r x - w.site r y = R x - R y := by
  unfold World.site
  rw [unwrap_flat h, unwrap_flat h, ZMod.natCast_zmod_val, ZMod.natCast_zmod_val]; abel

theorem sq_comm (u v : Vec) : sq (u - v) = sq (v - u) := by
  rw [← sq_neg, neg_sub]

/-- The candidates in terms of the unwrapped positions. -/
theorem mem_scan_flat {w : World} {r R : ZMod n → Vec} (h : w.Flat r R) {ia ic : ZMod n} :
    ic ∈ w.scan r ia ↔ (∃ i, i < n - 3 ∧ ic = ia + 1 + ((i + 1 : ℕ) : ZMod n)) ∧
      w.inRange (sq (R ia - R (ia + 1))) ∧ w.inRange (sq (R ic - R (ic + 1))) ∧
      w.inRange (sq (R ia - R ic)) ∧ w.inRange (sq (R (ia + 1) - R (ic + 1))) := by
  rw [mem_scan, World.fits, site_flat h, site_flat h, site_flat h, h.bondSq,
    sq_comm (R (ic + 1)) (R ic), sq_comm (R (ic + 1)) (R (ia + 1))]
  tauto

theorem Even.reconnect {w : World} {r : ZMod n → Vec} (h : w.Even r) (ia ic : ZMod n) :
    w.Even (reconnect r ia ic) := by
  rw [reconnect_eq]
  exact ⟨fun x y => h.dsq _ _, fun ha x y => h.dvec ha _ _⟩

/-- The rebridged ring closes, and its unwrapped positions are those of the ring rebridged. -/
theorem Flat.reconnect {w : World} {r R : ZMod n → Vec} (h : w.Flat r R) (he : w.Even r)
    {ia ic : ZMod n} (hm : ic ∈ w.scan r ia) :
    w.Flat (reconnect r ia ic) (reconnect R ia ic) := by
  obtain ⟨⟨i, hi, hc⟩, hab, hcd, hac, hbd⟩ := (mem_scan_flat h).1 hm
  obtain ⟨hb, hd⟩ := cand_off hi hc
  have hca : w.inRange (sq (R ic - R ia)) := by rwa [sq_comm]
  have hdb : w.inRange (sq (R (ic + 1) - R (ia + 1))) := by rwa [sq_comm]
  -- what is needed of any two places that become neighbours
  have key : ∀ x, let p := mirror (arc ia ic).1 (arc ia ic).2 x
      let q := mirror (arc ia ic).1 (arc ia ic).2 (x + 1)
      w.dvec (r q) (r p) = R q - R p ∧ w.dvec (r p) (r q) = R p - R q ∧
        w.dsq (r p) (r q) = sq (R p - R q) := by
    intro x p q
    have adj : q = p + 1 ∨ p = q + 1 ∨ (p = ia ∧ q = ic) ∨ (p = ic ∧ q = ia) ∨
        (p = ia + 1 ∧ q = ic + 1) ∨ (p = ic + 1 ∧ q = ia + 1) := by
      have hp : p = mirror (arc ia ic).1 (arc ia ic).2 x := rfl
      have hq : q = mirror (arc ia ic).1 (arc ia ic).2 (x + 1) := rfl
      have hL : (arc ia ic).2 + 2 ≤ n := by unfold arc; split <;> simp only <;> omega
      have ha := adjacent (lo := (arc ia ic).1) hL x
      rw [← hp, ← hq] at ha
      have hends : ((arc ia ic).1 = ia + 1 ∧ (arc ia ic).1 + (((arc ia ic).2 : ℕ) : ZMod n) = ic) ∨
          ((arc ia ic).1 = ic + 1 ∧ (arc ia ic).1 + (((arc ia ic).2 : ℕ) : ZMod n) = ia) := by
        unfold arc
        split
        · left; exact ⟨rfl, by rw [ZMod.natCast_zmod_val]; ring⟩
        · right; exact ⟨rfl, by rw [ZMod.natCast_zmod_val]; ring⟩
      rcases hends with ⟨h1, h2⟩ | ⟨h1, h2⟩
      · rw [h2, h1, add_sub_cancel_right] at ha; tauto
      · rw [h2, h1, add_sub_cancel_right] at ha; tauto
    have two : ∀ y z, w.inRange (sq (R y - R z)) → w.dvec (r z) (r y) = R z - R y ∧
        w.dvec (r y) (r z) = R y - R z ∧ w.dsq (r y) (r z) = sq (R y - R z) := fun y z hyz =>
      ⟨(h.near z y (by rwa [sq_comm])).1, h.near y z hyz⟩
    rcases adj with e | e | ⟨e1, e2⟩ | ⟨e1, e2⟩ | ⟨e1, e2⟩ | ⟨e1, e2⟩
    · rw [e]; exact ⟨h.bond p, h.back p, h.bondSq p⟩
    · rw [e]; exact ⟨h.back q, h.bond q, by rw [he.dsq, h.bondSq, sq_comm]⟩
    · rw [e1, e2]; exact two _ _ hac
    · rw [e1, e2]; exact two _ _ hca
    · rw [e1, e2]; exact two _ _ hbd
    · rw [e1, e2]; exact two _ _ hdb
  rw [reconnect_eq, reconnect_eq]
  exact ⟨fun x => (key x).1, fun x => (key x).2.1, fun x => (key x).2.2, fun x y => h.near _ _⟩

/-- A candidate remains one after the move. -/
theorem scan_symm {w : World} {r R : ZMod n → Vec} (h : w.Flat r R) (he : w.Even r)
    {ia ic : ZMod n} (hm : ic ∈ w.scan r ia) : ic ∈ w.scan (reconnect r ia ic) ia := by
  have h' := Flat.reconnect h he hm
  obtain ⟨⟨i, hi, hc⟩, hab, hcd, hac, hbd⟩ := (mem_scan_flat h).1 hm
  rw [mem_scan_flat h']
  refine ⟨⟨i, hi, hc⟩, ?_⟩
  have := corners hi hc _ rfl
  rw [reconnect_eq]
  simp only
  rcases this with ⟨e1, e2, e3, e4⟩ | ⟨e1, e2, e3, e4⟩
  · rw [e1, e2, e3, e4]; exact ⟨hac, hbd, hab, hcd⟩
  · rw [e1, e2, e3, e4]
    refine ⟨?_, ?_, ?_, ?_⟩
    · rw [sq_comm]; exact hbd
    · rw [sq_comm]; exact hac
    · rw [sq_comm]; exact hcd
    · rw [sq_comm]; exact hab

/-! ### Probabilities -/

theorem sum_getElem? {α : Type*} (l : List α) (f : Option α → ℝ≥0∞) :
    ∑ k ∈ Finset.range l.length, f l[k]? = (l.map fun x => f (some x)).sum := by
  induction l with
  | nil => simp
  | cons x l ih =>
    rw [List.length_cons, Finset.sum_range_succ', List.map_cons, List.sum_cons, ← ih, add_comm]
    simp

/-- Probability that the move through a given candidate is accepted. -/
noncomputable def World.accept (w : World) (r : ZMod n → Vec) (ia ic : ZMod n) : ℝ≥0∞ :=
  ENNReal.ofReal (min 1 (Real.exp (-w.beta * w.tetraEnergy r ia ic)))

open Classical in
theorem passage_eq (w : World) (r r' : ZMod n → Vec) :
    w.passage r r' = ∑ ia : ZMod n, (n : ℝ≥0∞)⁻¹ *
      ∑ ic ∈ (w.scan r ia).toFinset.filter (fun ic => reconnect r ia ic = r'),
        ((w.scan r ia).length : ℝ≥0∞)⁻¹ * w.accept r ia ic := by
  unfold World.passage
  refine Finset.sum_congr rfl fun ia _ => ?_
  congr 1
  have e : ∀ k, McMoves.prob (fun v => w.move r ia k v = (r', true)) =
      (fun o : Option (ZMod n) => match o with
        | none => (0 : ℝ≥0∞)
        | some ic => if reconnect r ia ic = r' then w.accept r ia ic else 0) (w.scan r ia)[k]? := by
    intro k
    unfold World.move
    rcases (w.scan r ia)[k]? with _ | ic
    · simp only
      rw [← McMoves.prob_false]
      congr 1
      funext v
      simp
    · simp only
      split_ifs with hr
      · unfold World.accept
        rw [← McMoves.prob_metropolis (Real.exp_pos _).le]
        refine McMoves.prob_congr fun v _ _ => ?_
        by_cases hv : McMoves.metropolis (Real.exp (-w.beta * w.tetraEnergy r ia ic)) v = true
        · rw [if_pos hv, hr]; simp only [hv]
        · rw [if_neg hv]; simp only [Prod.mk.injEq, Bool.false_eq_true, and_false, hv]
      · rw [← McMoves.prob_false]
        congr 1
        funext v
        by_cases hv : McMoves.metropolis (Real.exp (-w.beta * w.tetraEnergy r ia ic)) v = true
        · simp only [if_pos hv, Prod.mk.injEq, hr, false_and]
        · simp only [if_neg hv, Prod.mk.injEq, Bool.false_eq_true, and_false]
  rw [Finset.sum_congr rfl fun k _ => by rw [e k], ← Finset.mul_sum, ← Finset.mul_sum]
  congr 1
  rw [sum_getElem? (w.scan r ia) (fun o : Option (ZMod n) => match o with
        | none => (0 : ℝ≥0∞)
        | some ic => if reconnect r ia ic = r' then w.accept r ia ic else 0), ← List.sum_toFinset _ (nodup_scan w r ia), Finset.sum_filter]

/-- Boltzmann factor of the ring. -/
noncomputable def World.weight (w : World) (ext : Vec → ℝ) (r : ZMod n → Vec) : ℝ≥0∞ :=
  ENNReal.ofReal (Real.exp (-w.beta * w.ringEnergy ext r))

/-- The two directions through the same candidate are accepted in the ratio of the Boltzmann
factors. -/
theorem accept_balance (w : World) (ext : Vec → ℝ) {r : ZMod n → Vec} (he : w.Even r)
    {ia ic : ZMod n} {i : ℕ} (hi : i < n - 3) (hc : ic = ia + 1 + ((i + 1 : ℕ) : ZMod n)) :
    w.weight ext r * w.accept r ia ic =
      w.weight ext (reconnect r ia ic) * w.accept (reconnect r ia ic) ia ic := by
  have e1 := energy_reconnect w ext he hi hc
  have e2 := energy_reconnect w ext (Even.reconnect he ia ic) hi hc
  rw [reconnect_reconnect] at e2
  unfold World.weight World.accept
  have f1 : Real.exp (-w.beta * w.tetraEnergy r ia ic) =
      Real.exp (-w.beta * w.ringEnergy ext (reconnect r ia ic)) /
        Real.exp (-w.beta * w.ringEnergy ext r) := by
    rw [← Real.exp_sub, e1]; congr 1; ring
  have f2 : Real.exp (-w.beta * w.tetraEnergy (reconnect r ia ic) ia ic) =
      Real.exp (-w.beta * w.ringEnergy ext r) /
        Real.exp (-w.beta * w.ringEnergy ext (reconnect r ia ic)) := by
    rw [← Real.exp_sub]; congr 1; rw [e1] at e2 ⊢; linear_combination (w.beta) * e2
  rw [f1, f2]
  exact McMoves.balance_min (Real.exp_pos _) (Real.exp_pos _)

/-- Detailed balance between two rings, provided that the number of candidates is the same on both
sides of each path between them. -/
theorem balance (w : World) (ext : Vec → ℝ) {r r' R R' : ZMod n → Vec} (he : w.Even r)
    (hf : w.Flat r R) (he' : w.Even r') (hf' : w.Flat r' R')
    (hcount : ∀ ia, ∀ ic ∈ w.scan r ia, reconnect r ia ic = r' →
      (w.scan r' ia).length = (w.scan r ia).length) :
    w.weight ext r * w.passage r r' = w.weight ext r' * w.passage r' r := by
  classical
  rw [passage_eq, passage_eq, Finset.mul_sum, Finset.mul_sum]
  refine Finset.sum_congr rfl fun ia _ => ?_
  rw [mul_left_comm, mul_left_comm (w.weight ext r')]
  congr 1
  have hset : (w.scan r ia).toFinset.filter (fun ic => reconnect r ia ic = r') =
      (w.scan r' ia).toFinset.filter (fun ic => reconnect r' ia ic = r) := by
    ext ic
    simp only [Finset.mem_filter, List.mem_toFinset]
    constructor
    · rintro ⟨h, e⟩
      exact ⟨e ▸ scan_symm hf he h, by rw [← e, reconnect_reconnect]⟩
    · rintro ⟨h, e⟩
      exact ⟨e ▸ scan_symm hf' he' h, by rw [← e, reconnect_reconnect]⟩
  rw [← hset, Finset.mul_sum, Finset.mul_sum]
  refine Finset.sum_congr rfl fun ic hic => ?_
  simp only [Finset.mem_filter, List.mem_toFinset] at hic
  obtain ⟨hm, hr⟩ := hic
  rw [hcount ia ic hm hr, mul_left_comm, mul_left_comm (w.weight ext r')]
  congr 1
  obtain ⟨-, ⟨i, hi, hc⟩, -⟩ := mem_scan.1 hm
  have := accept_balance w ext he hi hc
  rw [hr] at this
  exact this

end Verif.Rebridge
