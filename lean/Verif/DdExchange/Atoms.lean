import Verif.DdExchange.Topology
import Verif.DdChem.Props
import Mathlib.Algebra.BigOperators.Group.Finset.Basic
import Mathlib.Algebra.BigOperators.Group.Finset.Sigma
import Mathlib.Algebra.Order.BigOperators.Group.Multiset
import Mathlib.Data.Fintype.Pi
import Mathlib.Data.Multiset.Bind
import Mathlib.Tactic.Linarith
import Mathlib.Tactic.Ring
import Mathlib.Tactic.FieldSimp

/-! Lemmas about the exchange of atoms. -/

set_option autoImplicit false

namespace Verif.DdExchange

open Verif.Boundary Verif.DdChem

variable {N : Fin 3 → ℕ} {D : Type}

/-! ### Plans -/

theorem exch_setExchange (q : Plan) (i i' : Fin 3) (j j' : Fin 2) :
    (q.setExchange i j).exchange i' j' = if i' = i ∧ j' = j then true else q.exchange i' j' := by
  have := congrArg Plan.Abs.e (Plan.obs_step q (.setExchange i j))
  exact congrFun (congrFun this i') j'

theorem ghost_setExchange (q : Plan) (i i' : Fin 3) (j j' : Fin 2) :
    (q.setExchange i j).ghost i' j' = q.ghost i' j' := by
  have := congrArg Plan.Abs.g (Plan.obs_step q (.setExchange i j))
  exact congrFun (congrFun this i') j'

theorem exch_setGhost (q : Plan) (i i' : Fin 3) (j j' : Fin 2) :
    (q.setGhost i j).exchange i' j' = q.exchange i' j' := by
  have := congrArg Plan.Abs.e (Plan.obs_step q (.setGhost i j))
  exact congrFun (congrFun this i') j'

theorem ghost_setGhost (q : Plan) (i i' : Fin 3) (j j' : Fin 2) :
    (q.setGhost i j).ghost i' j' = if i' = i ∧ j' = j then true else q.ghost i' j' := by
  have := congrArg Plan.Abs.g (Plan.obs_step q (.setGhost i j))
  exact congrFun (congrFun this i') j'

theorem ghost_clearGhost (q : Plan) (i i' : Fin 3) (j j' : Fin 2) :
    (q.clearGhost i j).ghost i' j' = if i' = i ∧ j' = j then false else q.ghost i' j' := by
  have := congrArg Plan.Abs.g (Plan.obs_step q (.clearGhost i j))
  exact congrFun (congrFun this i') j'

theorem exch_clearFlags (q : Plan) (i' : Fin 3) (j' : Fin 2) : q.clearFlags.exchange i' j' = false := by
  have := congrArg Plan.Abs.e (Plan.obs_step q .clearFlags)
  exact congrFun (congrFun this i') j'

theorem ghost_clearFlags (q : Plan) (i' : Fin 3) (j' : Fin 2) : q.clearFlags.ghost i' j' = false := by
  have := congrArg Plan.Abs.g (Plan.obs_step q .clearFlags)
  exact congrFun (congrFun this i') j'

/-- Condition under which iteration `d` sets its exchange flag. -/
def ECond (p : Proc N) (x : Vec) (d : Dir) : Prop :=
  if d.2 = 0 then x d.1 < bound p d.1 0 else bound p d.1 1 < x d.1

/-- Condition under which iteration `d` sets ghost flag `j` of its direction. -/
def GCond (slab : Vec) (p : Proc N) (x : Vec) (d : Dir) (j : Fin 2) : Prop :=
  if d.2 = 0 then
    if j = 0 then ¬ x d.1 < bound p d.1 0 ∧ x d.1 < bound p d.1 0 + slab d.1
    else x d.1 < bound p d.1 0 ∧ bound p d.1 0 - slab d.1 < x d.1
  else
    if j = 0 then bound p d.1 1 < x d.1 ∧ x d.1 < bound p d.1 1 + slab d.1
    else ¬ bound p d.1 1 < x d.1 ∧ bound p d.1 1 - slab d.1 < x d.1

theorem fin2_cases (j : Fin 2) : j = 0 ∨ j = 1 := by omega

theorem planStep_exchange (slab : Vec) (p : Proc N) (x : Vec) (q : Plan) (d : Dir) (i : Fin 3)
    (j : Fin 2) :
    (planStep slab p x q d).exchange i j = true ↔
      q.exchange i j = true ∨ (i, j) = d ∧ ECond p x d := by
  obtain ⟨i', j'⟩ := d
  rcases fin2_cases j' with rfl | rfl
  · simp only [planStep, ECond, if_true]
    by_cases h : x i' < bound p i' 0
    · simp only [h, if_true, and_true]
      split <;> simp only [exch_setGhost, exch_setExchange, Prod.mk.injEq] <;>
        by_cases hh : i = i' ∧ j = 0 <;> simp [hh]
    · simp only [h, if_false, and_false, or_false]
      split <;> simp only [exch_setGhost]
  · have h10 : ¬ ((1 : Fin 2) = 0) := by decide
    simp only [planStep, ECond, if_neg h10]
    by_cases h : bound p i' 1 < x i'
    · simp only [h, if_true, and_true, gt_iff_lt]
      split <;> simp only [exch_setGhost, exch_setExchange, Prod.mk.injEq] <;>
        by_cases hh : i = i' ∧ j = 1 <;> simp [hh]
    · simp only [h, if_false, and_false, or_false, gt_iff_lt]
      split <;> simp only [exch_setGhost]

theorem planStep_ghost (slab : Vec) (p : Proc N) (x : Vec) (q : Plan) (d : Dir) (i : Fin 3)
    (j : Fin 2) :
    (planStep slab p x q d).ghost i j = true ↔
      q.ghost i j = true ∨ i = d.1 ∧ GCond slab p x d j := by
  obtain ⟨i', j'⟩ := d
  rcases fin2_cases j' with rfl | rfl
  · simp only [planStep, GCond, if_true, outer, inner]
    by_cases h : x i' < bound p i' 0
    · simp only [h, if_true, not_true, false_and, true_and, gt_iff_lt]
      by_cases h2 : bound p i' 0 - slab i' < x i'
      · simp only [h2, if_true, ghost_setGhost, ghost_setExchange]
        rcases fin2_cases j with rfl | rfl <;> by_cases hi : i = i' <;> simp [hi]
      · simp only [h2, if_false, ghost_setExchange]
        rcases fin2_cases j with rfl | rfl <;> simp
    · simp only [h, if_false, not_false_eq_true, true_and, false_and]
      by_cases h2 : x i' < bound p i' 0 + slab i'
      · simp only [h2, if_true, ghost_setGhost]
        rcases fin2_cases j with rfl | rfl <;> by_cases hi : i = i' <;> simp [hi]
      · simp only [h2, if_false]
        rcases fin2_cases j with rfl | rfl <;> simp
  · have h10 : ¬ ((1 : Fin 2) = 0) := by decide
    simp only [planStep, GCond, if_neg h10, outer, inner]
    by_cases h : bound p i' 1 < x i'
    · simp only [h, if_true, not_true, false_and, true_and, gt_iff_lt]
      by_cases h2 : x i' < bound p i' 1 + slab i'
      · simp only [h2, if_true, ghost_setGhost, ghost_setExchange]
        rcases fin2_cases j with rfl | rfl <;> by_cases hi : i = i' <;> simp [hi]
      · simp only [h2, if_false, ghost_setExchange]
        rcases fin2_cases j with rfl | rfl <;> simp
    · simp only [h, if_false, not_false_eq_true, true_and, false_and, gt_iff_lt]
      by_cases h2 : bound p i' 1 - slab i' < x i'
      · simp only [h2, if_true, ghost_setGhost]
        rcases fin2_cases j with rfl | rfl <;> by_cases hi : i = i' <;> simp [hi]
      · simp only [h2, if_false]
        rcases fin2_cases j with rfl | rfl <;> simp

theorem makePlan_exchange (slab : Vec) (p : Proc N) (x : Vec) (q : Plan) (i : Fin 3) (j : Fin 2) :
    (makePlan slab p x q).exchange i j = true ↔ ECond p x (i, j) := by
  simp only [makePlan, dirs, List.foldl_cons, List.foldl_nil, planStep_exchange, exch_clearFlags,
    Bool.false_eq_true, false_or]
  fin_cases i <;> fin_cases j <;> simp

theorem makePlan_ghost (slab : Vec) (p : Proc N) (x : Vec) (q : Plan) (i : Fin 3) (j : Fin 2) :
    (makePlan slab p x q).ghost i j = true ↔
      GCond slab p x (i, 0) j ∨ GCond slab p x (i, 1) j := by
  simp only [makePlan, dirs, List.foldl_cons, List.foldl_nil, planStep_ghost, ghost_clearFlags,
    Bool.false_eq_true, false_or]
  fin_cases i <;> simp

/-! ### Movement of one atom -/

@[simp] theorem move_data (a : Atom D) (i : Fin 3) (s : ℤ) : (a.move i s).data = a.data := by
  unfold Atom.move; split <;> rfl
@[simp] theorem move_plan (a : Atom D) (i : Fin 3) (s : ℤ) : (a.move i s).plan = a.plan := by
  unfold Atom.move; split <;> rfl
theorem move_pos_self (a : Atom D) (i : Fin 3) (s : ℤ) : (a.move i s).pos i = a.pos i + s := by
  unfold Atom.move; split
  · simp
  · rename_i h; push Not at h; simp [h]
theorem move_pos_ne (a : Atom D) (i k : Fin 3) (s : ℤ) (h : k ≠ i) :
    (a.move i s).pos k = a.pos k := by
  unfold Atom.move; split
  · simp [h]
  · rfl

/-- Effect of transfer `d` on an atom stored by processor `p`. -/
noncomputable def moveDir (d : Dir) (c : Proc N × Atom D) : Proc N × Atom D :=
  if c.2.plan.exchange d.1 d.2 then (dest d c.1, c.2.move d.1 (shift d (dest d c.1))) else c

/-- All atoms with the processor that stores them. -/
def located (G : Proc N → Local D) : Multiset (Proc N × Atom D) :=
  ∑ p, ((G p).atoms : Multiset (Atom D)).map (Prod.mk p)

theorem proc_one {d : Dir} (h : gridFlag N d.1 = false) (p : Proc N) : dest d p = p ∧ source d p = p := by
  have h1 : N d.1 = 1 := by
    have := (p d.1).2
    simp only [gridFlag, decide_eq_false_iff_not] at h; omega
  have hs : ∀ c : Fin (N d.1), c = p d.1 := by
    intro c
    apply Fin.ext
    have := c.2; have := (p d.1).2; omega
  constructor
  · rw [dest, hs (if d.2 = 0 then _ else _), Function.update_eq_self]
  · rw [source, hs (if d.2 = 0 then _ else _), Function.update_eq_self]

theorem located_exchangeDir (d : Dir) (G : Proc N → Local D) :
    located (exchangeDir d G) = (located G).map (moveDir d) := by
  have hmap : (located G).map (moveDir d) =
      ∑ p, ((G p).atoms : Multiset (Atom D)).map (fun a => moveDir d (p, a)) := by
    rw [located]
    rw [show (∑ p, ((G p).atoms : Multiset (Atom D)).map (Prod.mk p)).map (moveDir d) =
      ∑ p, (((G p).atoms : Multiset (Atom D)).map (Prod.mk p)).map (moveDir d) from
        map_sum (Multiset.mapAddMonoidHom (moveDir d)) _ _]
    simp only [Multiset.map_map, Function.comp_def]
  rw [hmap]
  cases hg : gridFlag N d.1 with
  | false =>
    rw [located]
    apply Finset.sum_congr rfl
    intro p _
    simp only [exchangeDir, hg, Bool.false_eq_true, if_false, Multiset.map_coe, List.map_map]
    congr 1
    apply List.map_congr_left
    intro a _
    have := (proc_one hg p).1
    simp only [Function.comp, moveDir, this]
    split <;> rfl
  | true =>
    have hsplit : ∀ p : Proc N, ((G p).atoms : Multiset (Atom D)).map (fun a => moveDir d (p, a)) =
        (((G p).atoms : Multiset (Atom D)).filter fun a => ¬ a.plan.exchange d.1 d.2 = true).map (Prod.mk p)
        + (((G p).atoms : Multiset (Atom D)).filter fun a => a.plan.exchange d.1 d.2 = true).map
          (fun a => (dest d p, a.move d.1 (shift d (dest d p)))) := by
      intro p
      have e : ∀ s : Multiset (Atom D), s.map (fun a => moveDir d (p, a)) =
        (s.filter fun a => ¬ a.plan.exchange d.1 d.2 = true).map (Prod.mk p)
        + (s.filter fun a => a.plan.exchange d.1 d.2 = true).map
          (fun a => (dest d p, a.move d.1 (shift d (dest d p)))) := by
        intro s
        induction s using Multiset.induction_on with
        | empty => simp
        | cons a s ih =>
          rw [Multiset.map_cons, ih]
          by_cases h : a.plan.exchange d.1 d.2 = true
          · simp [Multiset.filter_cons, moveDir, h]
          · simp [Multiset.filter_cons, moveDir, h]
      exact e _
    simp only [hsplit, Finset.sum_add_distrib]
    have hl : ∀ q : Proc N, ((exchangeDir d G q).atoms : Multiset (Atom D)).map (Prod.mk q) =
        (((G q).atoms : Multiset (Atom D)).filter fun a => ¬ a.plan.exchange d.1 d.2 = true).map (Prod.mk q)
        + (((G (source d q)).atoms : Multiset (Atom D)).filter fun a => a.plan.exchange d.1 d.2 = true).map
          (fun a => (q, a.move d.1 (shift d q))) := by
      intro q
      simp only [exchangeDir, hg, if_true, ← Multiset.coe_add, Multiset.map_add, Multiset.filter_coe,
        Multiset.map_coe, List.map_map]
      congr 3
      · apply List.filter_congr
        intro a _
        cases a.plan.exchange d.1 d.2 <;> rfl
      · apply List.filter_congr
        intro a _
        cases a.plan.exchange d.1 d.2 <;> rfl
    rw [located]
    simp only [hl, Finset.sum_add_distrib]
    congr 1
    refine Finset.sum_equiv (sourceEquiv d) (by simp) ?_
    intro q _
    simp only [sourceEquiv, Equiv.coe_fn_mk, dest_source]

/-- An atom with a newly computed plan. -/
noncomputable def replan (slab : Vec) (c : Proc N × Atom D) : Proc N × Atom D :=
  (c.1, { c.2 with plan := makePlan slab c.1 c.2.pos c.2.plan })

theorem located_planAll (slab : Vec) (G : Proc N → Local D) :
    located (fun p => planAll slab p (G p)) = (located G).map (replan slab) := by
  rw [located, located]
  rw [show (∑ p, ((G p).atoms : Multiset (Atom D)).map (Prod.mk p)).map (replan slab) =
      ∑ p, (((G p).atoms : Multiset (Atom D)).map (Prod.mk p)).map (replan slab) from
        map_sum (Multiset.mapAddMonoidHom _) _ _]
  apply Finset.sum_congr rfl
  intro p _
  simp only [planAll, Multiset.map_coe, List.map_map, Function.comp_def, replan]

/-- Where an atom ends up. -/
noncomputable def target (slab : Vec) (c : Proc N × Atom D) : Proc N × Atom D :=
  dirs.foldl (fun c d => moveDir d c) (replan slab c)

theorem located_foldl (l : List Dir) (G : Proc N → Local D) :
    located (l.foldl (fun G d => exchangeDir d G) G) =
      (located G).map (fun c => l.foldl (fun c d => moveDir d c) c) := by
  induction l generalizing G with
  | nil => simp
  | cons d l ih =>
    rw [List.foldl_cons, ih, located_exchangeDir, Multiset.map_map]
    rfl

theorem located_exchangeAtoms (slab : Vec) (G : Proc N → Local D) :
    located (exchangeAtoms slab G) = (located G).map (target slab) := by
  rw [exchangeAtoms, located_foldl, located_planAll, Multiset.map_map]
  rfl

/-! ### Geometry of a transfer -/

theorem bound_dest_down (p : Proc N) (i : Fin 3) :
    bound (dest (i, 0) p) i 1 = bound p i 0 + shift (i, 0) (dest (i, 0) p) := by
  have h := up_unroll (down (p i))
  rw [up_down] at h
  have hN : (0 : ℝ) < N i := by have := (p i).2; exact_mod_cast (by omega : 0 < N i)
  simp only [bound, shift, dest, if_true, Function.update_self]
  have h' : (((down (p i)).val : ℤ) : ℝ) + 1 = (((p i).val : ℤ) : ℝ) +
      (if (down (p i)).val + 1 = N i then (1 : ℝ) else 0) * N i := by
    have h2 := congrArg (fun z : ℤ => (z : ℝ)) h
    push_cast at h2 ⊢
    linarith
  simp only [Int.cast_natCast] at h'
  have h3 : (((1 : Fin 2).val : ℕ) : ℝ) = 1 := by norm_num
  have h4 : (((0 : Fin 2).val : ℕ) : ℝ) = 0 := by norm_num
  rw [h3, h4, h']
  push_cast
  field_simp
  ring

theorem bound_dest_up (p : Proc N) (i : Fin 3) :
    bound (dest (i, 1) p) i 0 = bound p i 1 + shift (i, 1) (dest (i, 1) p) := by
  have h := down_unroll (up (p i))
  rw [down_up] at h
  have hN : (0 : ℝ) < N i := by have := (p i).2; exact_mod_cast (by omega : 0 < N i)
  have h10 : ¬ ((1 : Fin 2) = 0) := by decide
  simp only [bound, shift, dest, if_neg h10, Function.update_self]
  have h' : (((up (p i)).val : ℤ) : ℝ) = (((p i).val : ℤ) : ℝ) + 1 +
      (if (up (p i)).val = 0 then (-1 : ℝ) else 0) * N i := by
    have h2 := congrArg (fun z : ℤ => (z : ℝ)) h
    push_cast at h2 ⊢
    linarith
  simp only [Int.cast_natCast] at h'
  have h3 : (((1 : Fin 2).val : ℕ) : ℝ) = 1 := by norm_num
  have h4 : (((0 : Fin 2).val : ℕ) : ℝ) = 0 := by norm_num
  rw [h3, h4, h']
  push_cast
  field_simp
  ring

theorem bound_width (p : Proc N) (i : Fin 3) : bound p i 1 = bound p i 0 + 1 / (N i : ℝ) := by
  simp only [bound]
  have h3 : (((1 : Fin 2).val : ℕ) : ℝ) = 1 := by norm_num
  have h4 : (((0 : Fin 2).val : ℕ) : ℝ) = 0 := by norm_num
  rw [h3, h4]; ring

theorem width_pos (p : Proc N) (i : Fin 3) : (0 : ℝ) < 1 / (N i : ℝ) := by
  have hN : (0 : ℝ) < N i := by have := (p i).2; exact_mod_cast (by omega : 0 < N i)
  positivity

/-- Both transfers of direction `i`. -/
noncomputable def moveDim (i : Fin 3) (c : Proc N × Atom D) : Proc N × Atom D :=
  moveDir (i, 1) (moveDir (i, 0) c)

theorem target_eq (slab : Vec) (c : Proc N × Atom D) :
    target slab c = moveDim 2 (moveDim 1 (moveDim 0 (replan slab c))) := rfl

/-- What the two transfers of direction `i` do to an atom whose plan is up to date in this
direction. -/
theorem moveDim_spec (i : Fin 3) (p : Proc N) (a : Atom D)
    (h0 : a.plan.exchange i 0 = true ↔ a.pos i < bound p i 0)
    (h1 : a.plan.exchange i 1 = true ↔ bound p i 1 < a.pos i) :
    let r := moveDim i (p, a)
    r.2.data = a.data ∧ r.2.plan = a.plan ∧ (∀ k, k ≠ i → r.1 k = p k ∧ r.2.pos k = a.pos k) ∧
    (∃ n : ℤ, r.2.pos i = a.pos i + n) ∧
    (a.pos i < bound p i 0 → r.2.pos i - bound r.1 i 1 = a.pos i - bound p i 0) ∧
    (bound p i 1 < a.pos i → r.2.pos i - bound r.1 i 0 = a.pos i - bound p i 1) ∧
    (bound p i 0 ≤ a.pos i → a.pos i ≤ bound p i 1 → r = (p, a)) := by
  have hw := bound_width p i
  have hpos := width_pos p i
  simp only [moveDim]
  by_cases hlo : a.pos i < bound p i 0
  · have e0 : a.plan.exchange i 0 = true := h0.2 hlo
    have e1 : a.plan.exchange i 1 = false := by
      cases h : a.plan.exchange i 1 with
      | false => rfl
      | true => have := h1.1 h; linarith
    have hr : moveDir (i, 1) (moveDir (i, 0) (p, a)) =
        (dest (i, 0) p, a.move i (shift (i, 0) (dest (i, 0) p))) := by
      simp [moveDir, e0, e1]
    rw [hr]
    refine ⟨by simp, by simp, ?_, ⟨_, move_pos_self _ _ _⟩, ?_, ?_, ?_⟩
    · intro k hk
      refine ⟨?_, move_pos_ne _ _ _ _ hk⟩
      simp [dest, hk]
    · intro _
      simp only
      rw [move_pos_self, bound_dest_down]; ring
    · intro h; linarith
    · intro h; linarith
  · have e0 : a.plan.exchange i 0 = false := by
      cases h : a.plan.exchange i 0 with
      | false => rfl
      | true => exact absurd (h0.1 h) hlo
    by_cases hhi : bound p i 1 < a.pos i
    · have e1 : a.plan.exchange i 1 = true := h1.2 hhi
      have hr : moveDir (i, 1) (moveDir (i, 0) (p, a)) =
          (dest (i, 1) p, a.move i (shift (i, 1) (dest (i, 1) p))) := by
        simp [moveDir, e0, e1]
      rw [hr]
      refine ⟨by simp, by simp, ?_, ⟨_, move_pos_self _ _ _⟩, ?_, ?_, ?_⟩
      · intro k hk
        refine ⟨?_, move_pos_ne _ _ _ _ hk⟩
        simp [dest, hk]
      · intro h; linarith
      · intro _
        simp only
        rw [move_pos_self, bound_dest_up]; ring
      · intro _ h; linarith
    · have e1 : a.plan.exchange i 1 = false := by
        cases h : a.plan.exchange i 1 with
        | false => rfl
        | true => exact absurd (h1.1 h) hhi
      have hr : moveDir (i, 1) (moveDir (i, 0) (p, a)) = (p, a) := by
        simp [moveDir, e0, e1]
      rw [hr]
      refine ⟨rfl, rfl, fun k _ => ⟨rfl, rfl⟩, ⟨0, by simp⟩, fun h => absurd h hlo,
        fun h => absurd h hhi, fun _ _ => rfl⟩

theorem bound_congr {p q : Proc N} {i : Fin 3} (h : p i = q i) (j : Fin 2) : bound p i j = bound q i j := by
  simp only [bound, h]

/-- What exchange does to an atom, direction by direction. -/
theorem target_spec (slab : Vec) (p : Proc N) (a : Atom D) :
    let r := target slab (p, a)
    r.2.data = a.data ∧ r.2.plan = makePlan slab p a.pos a.plan ∧
    ∀ i, (∃ n : ℤ, r.2.pos i = a.pos i + n) ∧
      (a.pos i < bound p i 0 → r.2.pos i - bound r.1 i 1 = a.pos i - bound p i 0) ∧
      (bound p i 1 < a.pos i → r.2.pos i - bound r.1 i 0 = a.pos i - bound p i 1) ∧
      (bound p i 0 ≤ a.pos i → a.pos i ≤ bound p i 1 → r.1 i = p i ∧ r.2.pos i = a.pos i) := by
  intro r
  set a0 : Atom D := { a with plan := makePlan slab p a.pos a.plan } with ha0
  have hE0 : ∀ i, (makePlan slab p a.pos a.plan).exchange i 0 = true ↔ a.pos i < bound p i 0 := by
    intro i; rw [makePlan_exchange]; simp [ECond]
  have hE1 : ∀ i, (makePlan slab p a.pos a.plan).exchange i 1 = true ↔ bound p i 1 < a.pos i := by
    intro i; rw [makePlan_exchange]; simp [ECond]
  obtain ⟨d0, q0, k0, n0, l0, u0, m0⟩ := moveDim_spec 0 p a0 (hE0 0) (hE1 0)
  set c1 := moveDim 0 (p, a0) with hc1
  have k01 := k0 1 (by decide)
  have k02 := k0 2 (by decide)
  obtain ⟨d1, q1, k1, n1, l1, u1, m1⟩ := moveDim_spec 1 c1.1 c1.2
    (by rw [q0, k01.2, bound_congr k01.1]; exact hE0 1)
    (by rw [q0, k01.2, bound_congr k01.1]; exact hE1 1)
  set c2 := moveDim 1 (c1.1, c1.2) with hc2
  have k10 := k1 0 (by decide)
  have k12 := k1 2 (by decide)
  obtain ⟨d2, q2, k2, n2, l2, u2, m2⟩ := moveDim_spec 2 c2.1 c2.2
    (by rw [q1, q0, k12.2, k02.2, bound_congr (k12.1.trans k02.1)]; exact hE0 2)
    (by rw [q1, q0, k12.2, k02.2, bound_congr (k12.1.trans k02.1)]; exact hE1 2)
  have hr : r = moveDim 2 (c2.1, c2.2) := target_eq slab (p, a)
  rw [← hr] at d2 q2 k2 n2 l2 u2 m2
  have k20 := k2 0 (by decide)
  have k21 := k2 1 (by decide)
  refine ⟨d2.trans (d1.trans d0), q2.trans (q1.trans q0), ?_⟩
  intro i
  fin_cases i
  · -- direction 0
    have hp : r.2.pos 0 = c1.2.pos 0 := k20.2.trans k10.2
    have hb : ∀ j, bound r.1 0 j = bound c1.1 0 j := fun j => bound_congr (k20.1.trans k10.1) j
    refine ⟨?_, ?_, ?_, ?_⟩
    · obtain ⟨n, hn⟩ := n0; exact ⟨n, hp.trans hn⟩
    · intro h; simp only [Fin.zero_eta, hp, hb]; exact l0 h
    · intro h; simp only [Fin.zero_eta, hp, hb]; exact u0 h
    · intro h h'
      have := m0 h h'
      exact ⟨(k20.1.trans k10.1).trans (congrArg (fun c => c.1 0) this),
        hp.trans (congrArg (fun c => c.2.pos 0) this)⟩
  · have hp : r.2.pos 1 = c2.2.pos 1 := k21.2
    have hb : ∀ j, bound r.1 1 j = bound c2.1 1 j := fun j => bound_congr k21.1 j
    have hb1 : ∀ j, bound c1.1 1 j = bound p 1 j := fun j => bound_congr k01.1 j
    have hx : c1.2.pos 1 = a.pos 1 := k01.2
    rw [hx, hb1] at l1
    rw [hx, hb1] at u1
    rw [hx, hb1, hb1] at m1
    rw [hx] at n1
    refine ⟨?_, ?_, ?_, ?_⟩
    · obtain ⟨n, hn⟩ := n1; exact ⟨n, hp.trans hn⟩
    · intro h; simp only [Fin.mk_one, hp, hb]; exact l1 h
    · intro h; simp only [Fin.mk_one, hp, hb]; exact u1 h
    · intro h h'
      have := m1 h h'
      exact ⟨k21.1.trans (by rw [this]; exact k01.1), hp.trans (by rw [this]; exact hx)⟩
  · have hb2 : ∀ j, bound c2.1 2 j = bound p 2 j := fun j => bound_congr (k12.1.trans k02.1) j
    have hx : c2.2.pos 2 = a.pos 2 := k12.2.trans k02.2
    rw [hx, hb2] at l2
    rw [hx, hb2] at u2
    rw [hx, hb2, hb2] at m2
    rw [hx] at n2
    refine ⟨n2, l2, u2, ?_⟩
    intro h h'
    have := m2 h h'
    exact ⟨by rw [this]; exact k12.1.trans k02.1, by rw [this]; exact hx⟩

end Verif.DdExchange
