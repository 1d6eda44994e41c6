import Verif.DdRun.Model
import Mathlib.Algebra.BigOperators.Finprod

/-! # Sums of pair forces -/

set_option autoImplicit false

namespace Verif.DdRun

open Verif.Boundary Verif.DdExchange Verif.DdCellList

variable {N : Fin 3 → ℕ} {ι : Type}

/-- Requirements on the parameters. -/
structure Env.OK (y : Env ι) : Prop where
  frame : Frame y.L y.cart y.n
  cart_gen : ∀ x, y.cart (y.gen x) = x
  gen_cart : ∀ x, y.gen (y.cart x) = x
  lat : ∀ i t, y.lat i t = y.cart (Pi.single i (t : ℝ))
  range : 0 < y.range
  skin : 0 ≤ y.skin
  cut : ∀ i j, y.cutSq i j ≤ y.range ^ 2
  cut_symm : ∀ i j, y.cutSq i j = y.cutSq j i
  force_symm : ∀ i j r, y.forceOverR r i j = y.forceOverR r j i
  mask_symm : ∀ i j, y.masked i j → y.masked j i

open Classical in
/-- **Specification of the force** on atom `i`: the sum over all other unmasked atoms and over all
periodic images of these. -/
noncomputable def Env.field [Fintype ι] (y : Env ι) (r : ι → Vec) (i : ι) : Vec :=
  ∑ j, if j ≠ i ∧ ¬ y.masked i j then ∑ᶠ k : Fin 3 → ℤ, y.pairForce i j (r i - (r j + y.cart fun l => k l)) else 0

namespace Env.OK

variable {y : Env ι} (ok : y.OK)
include ok

theorem cutoff_pos : 0 < y.cutoff := by unfold Env.cutoff; linarith [ok.range, ok.skin]

theorem cart_sub (x z : Vec) : y.cart (x - z) = y.cart x - y.cart z := (ok.frame.lin x z).symm

theorem cart_zero : y.cart 0 = 0 := by simpa using ok.cart_sub 0 0

theorem cart_neg (x : Vec) : y.cart (-x) = - y.cart x := by
  have := ok.cart_sub 0 x
  simpa [ok.cart_zero] using this

theorem cart_add (x z : Vec) : y.cart (x + z) = y.cart x + y.cart z := by
  have := ok.cart_sub x (-z)
  rw [ok.cart_neg] at this
  simpa using this

theorem gen_add (x z : Vec) : y.gen (x + z) = y.gen x + y.gen z := by
  conv_lhs => rw [← ok.cart_gen x, ← ok.cart_gen z, ← ok.cart_add, ok.gen_cart]

theorem pairForce_neg (i j : ι) (w : Vec) : y.pairForce i j (-w) = - y.pairForce j i w := by
  unfold Env.pairForce
  rw [normSq_neg, ok.cut_symm i j, ok.force_symm i j]
  split <;> simp

theorem pairForce_ne {i j : ι} {w : Vec} (h : y.pairForce i j w ≠ 0) : normSq w < y.range ^ 2 := by
  unfold Env.pairForce at h
  split at h
  · rename_i hw; exact hw.trans_le (ok.cut i j)
  · simp at h

end Env.OK

/-- Reindexing of a sum over images by a finite set of entries. `J e` is the partner of entry `e`
and `W e` the separation at the time of the exchange. -/
theorem sum_entries [Fintype ι] {τ : Type} (E : Finset τ) (J : τ → ι) (W : τ → Vec) (h : τ → Vec)
    (g : ι → (Fin 3 → ℤ) → Vec) (a : ι → Vec) (i : ι) (good : ι → Prop) [DecidablePred good]
    (hE : ∀ e ∈ E, good (J e) ∧ SameImage (a (J e) - a i) (W e))
    (hex : ∀ j k, good j → g j k ≠ 0 → ∃ e ∈ E, J e = j ∧ W e = fun l => a j l - a i l + k l)
    (hinj : ∀ e ∈ E, ∀ e' ∈ E, J e = J e' → W e = W e' → e = e')
    (hh : ∀ e ∈ E, ∀ k : Fin 3 → ℤ, (W e = fun l => a (J e) l - a i l + k l) → h e = g (J e) k) :
    (∑ j, if good j then ∑ᶠ k, g j k else 0) = ∑ e ∈ E, h e := by
  classical
  obtain ⟨κ, hκ⟩ : ∃ κ : τ → Fin 3 → ℤ, ∀ e ∈ E, W e = fun l => a (J e) l - a i l + κ e l := by
    refine ⟨fun e l => ⌊W e l - (a (J e) l - a i l)⌋, ?_⟩
    intro e he
    obtain ⟨-, k, hk⟩ := hE e he
    funext l
    have := hk l
    simp only [Pi.sub_apply] at this
    have h2 : W e l - (a (J e) l - a i l) = (k l : ℝ) := by rw [this]; ring
    show W e l = a (J e) l - a i l + (⌊W e l - (a (J e) l - a i l)⌋ : ℤ)
    rw [h2, Int.floor_intCast, this]
  rw [← Finset.sum_fiberwise_of_maps_to (g := J) (t := Finset.univ) (fun _ _ => Finset.mem_univ _)]
  refine Finset.sum_congr rfl fun j _ => ?_
  split
  · rename_i hj
    have hinj' : Set.InjOn κ (E.filter fun e => J e = j) := by
      intro e he e' he' hk
      rw [Finset.mem_coe, Finset.mem_filter] at he he'
      refine hinj e he.1 e' he'.1 (he.2.trans he'.2.symm) ?_
      rw [hκ e he.1, hκ e' he'.1, he.2, he'.2, hk]
    rw [finsum_eq_sum_of_support_subset (s := (E.filter fun e => J e = j).image κ), Finset.sum_image hinj']
    · refine Finset.sum_congr rfl fun e he => ?_
      obtain ⟨he', rfl⟩ := Finset.mem_filter.1 he
      exact (hh e he' _ (hκ e he')).symm
    · intro k hk
      obtain ⟨e, he, hJ, hW⟩ := hex j k hj hk
      rw [Finset.mem_coe, Finset.mem_image]
      refine ⟨e, Finset.mem_filter.2 ⟨he, hJ⟩, ?_⟩
      rw [hκ e he, hJ] at hW
      funext l
      have := congrFun hW l
      have : ((κ e l : ℤ) : ℝ) = k l := by linarith
      exact_mod_cast this
  · rename_i hj
    symm
    apply Finset.sum_eq_zero
    intro e he
    obtain ⟨he', rfl⟩ := Finset.mem_filter.1 he
    exact absurd (hE e he').1 hj

/-! ### The loop -/

section Loop

variable (y : Env ι) (atoms : List (Atom (Dat ι))) (nl : ℕ) (X : ℕ → Vec)

/-- Force of an entry on its first atom. -/
noncomputable def Env.entryForce (e : Atom (Dat ι) × Atom (Dat ι)) : Vec :=
  y.pairForce e.1.data.1 e.2.data.1 (X (slot atoms e.1) - X (slot atoms e.2))

open Classical in
theorem addPair_apply (F : ℕ → Vec) (e : Atom (Dat ι) × Atom (Dat ι)) (k : ℕ) :
    y.addPair atoms nl X F e k = F k + ((if slot atoms e.1 = k then y.entryForce atoms X e else 0) +
      (if (y.reverse = true ∨ slot atoms e.2 < nl) ∧ slot atoms e.2 = k then - y.entryForce atoms X e else 0)) := by
  unfold Env.addPair Env.entryForce Env.pairForce
  dsimp only
  by_cases h1 : normSq (X (slot atoms e.1) - X (slot atoms e.2)) < y.cutSq e.1.data.1 e.2.data.1
  · simp only [if_pos h1]
    by_cases h2 : y.reverse = true ∨ slot atoms e.2 < nl
    · simp only [h2, true_and, if_true]
      by_cases h3 : slot atoms e.2 = k
      · subst h3
        rw [Function.update_self, if_pos rfl]
        by_cases h4 : slot atoms e.1 = slot atoms e.2
        · rw [if_pos h4, h4, Function.update_self]; abel
        · rw [if_neg h4, Function.update_of_ne (Ne.symm h4)]; abel
      · rw [Function.update_of_ne (Ne.symm h3), if_neg h3]
        by_cases h4 : slot atoms e.1 = k
        · subst h4; rw [Function.update_self, if_pos rfl]; abel
        · rw [if_neg h4, Function.update_of_ne (Ne.symm h4)]; abel
    · simp only [h2, false_and, if_false]
      by_cases h4 : slot atoms e.1 = k
      · subst h4; rw [Function.update_self, if_pos rfl]; abel
      · rw [if_neg h4, Function.update_of_ne (Ne.symm h4)]; abel
  · simp only [if_neg h1]
    simp

open Classical in
theorem foldl_addPair (F : ℕ → Vec) (P : List (Atom (Dat ι) × Atom (Dat ι))) (k : ℕ) :
    P.foldl (y.addPair atoms nl X) F k = F k + (P.map fun e =>
      ((if slot atoms e.1 = k then y.entryForce atoms X e else 0) +
      (if (y.reverse = true ∨ slot atoms e.2 < nl) ∧ slot atoms e.2 = k then - y.entryForce atoms X e else 0))).sum := by
  induction P generalizing F with
  | nil => simp
  | cons e P ih =>
    rw [List.foldl_cons, ih, addPair_apply, List.map_cons, List.sum_cons, add_assoc]

end Loop

open Classical in
theorem slot_lt {atoms : List (Atom (Dat ι))} {a : Atom (Dat ι)} (h : a ∈ atoms) : slot atoms a < atoms.length :=
  List.idxOf_lt_length_iff.2 h

theorem slot_get {atoms : List (Atom (Dat ι))} {a : Atom (Dat ι)} (h : a ∈ atoms) : atoms[slot atoms a]? = some a := by
  classical
  rw [List.getElem?_eq_getElem (slot_lt h)]
  congr 1
  exact List.getElem_idxOf (slot_lt h)

theorem slot_of_get {atoms : List (Atom (Dat ι))} (hn : atoms.Nodup) {k : ℕ} {a : Atom (Dat ι)} (h : atoms[k]? = some a) :
    slot atoms a = k := by
  have hm : a ∈ atoms := List.mem_of_getElem? h
  have h1 := slot_get hm
  obtain ⟨hk, e⟩ := List.getElem?_eq_some_iff.1 h
  obtain ⟨hk', e'⟩ := List.getElem?_eq_some_iff.1 h1
  exact (List.Nodup.getElem_inj_iff hn).1 (e'.trans e.symm)

end Verif.DdRun
