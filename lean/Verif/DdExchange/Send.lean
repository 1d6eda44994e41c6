import Verif.DdExchange.Atoms
import Mathlib.Data.List.Nodup

/-! The send arrays after the exchange of atoms. -/

set_option autoImplicit false

namespace Verif.DdExchange

open Verif.Boundary Verif.DdChem

variable {N : Fin 3 → ℕ} {D : Type}

/-- No exchange flag in the remaining transfers. -/
def settled (N : Fin 3 → ℕ) (rest : List Dir) (q : Plan) : Bool :=
  rest.all fun d => !(q.exchange d.1 d.2 && gridFlag N d.1)

/-- An atom is not sent both up and down. -/
def Excl (q : Plan) : Prop := ∀ i, ¬ (q.exchange i 0 = true ∧ q.exchange i 1 = true)

/-- Invariant of the send arrays before the transfers `rest`. -/
def SendInv (rest : List Dir) (G : Proc N → Local D) : Prop :=
  (∀ q d', ((G q).send d').Perm (((G q).atoms.filter fun a =>
    settled N rest a.plan && a.plan.ghost d'.1 d'.2).map (·.data))) ∧
  (∀ q, ∀ a ∈ (G q).atoms, Excl a.plan)

/-- Condition on the list of transfers: `isHome` after transfer `d` tests the remaining ones. -/
def HomeOK (N : Fin 3 → ℕ) (d : Dir) (rest : List Dir) : Prop :=
  ∀ q : Plan, Excl q → q.exchange d.1 d.2 = true → homeAfter N d.1 q = settled N rest q

theorem exchangeDir_inv (d : Dir) (rest : List Dir) (hd : HomeOK N d rest) (G : Proc N → Local D)
    (h : SendInv (d :: rest) G) : SendInv rest (exchangeDir d G) := by
  obtain ⟨hp, he⟩ := h
  cases hg : gridFlag N d.1 with
  | true =>
    refine ⟨?_, ?_⟩
    · intro q d'
      simp only [exchangeDir, hg, if_true, List.filter_append, List.map_append]
      apply List.Perm.append
      · refine (hp q d').trans ?_
        rw [List.filter_filter]
        apply List.Perm.of_eq
        congr 1
        apply List.filter_congr
        intro a _
        simp only [settled, List.all_cons, hg, Bool.and_true]
        cases a.plan.exchange d.1 d.2 <;> simp
      · apply List.Perm.of_eq
        congr 1
        apply List.filter_congr
        intro a ha
        rw [List.mem_map] at ha
        obtain ⟨b, hb, rfl⟩ := ha
        rw [List.mem_filter] at hb
        rw [move_plan, hd _ (he _ b hb.1) hb.2]
    · intro q a ha
      simp only [exchangeDir, hg, if_true, List.mem_append, List.mem_filter, List.mem_map] at ha
      rcases ha with ⟨ha, -⟩ | ⟨b, ⟨hb, -⟩, rfl⟩
      · exact he q a ha
      · rw [move_plan]; exact he _ b hb
  | false =>
    refine ⟨?_, ?_⟩
    · intro q d'
      simp only [exchangeDir, hg, Bool.false_eq_true, if_false]
      refine (hp q d').trans (List.Perm.of_eq ?_)
      rw [List.filter_map, List.map_map]
      have e1 : ((fun a : Atom D => a.data) ∘ fun a : Atom D =>
          if a.plan.exchange d.1 d.2 = true then a.move d.1 (shift d q) else a) = fun a => a.data := by
        funext a
        simp only [Function.comp]
        split <;> simp
      rw [e1]
      congr 1
      apply List.filter_congr
      intro a _
      have e2 : (if a.plan.exchange d.1 d.2 = true then a.move d.1 (shift d q) else a).plan =
          a.plan := by split <;> simp
      simp only [Function.comp, e2, settled, List.all_cons, hg, Bool.and_false, Bool.not_false,
        Bool.true_and]
    · intro q a ha
      simp only [exchangeDir, hg, Bool.false_eq_true, if_false, List.mem_map] at ha
      obtain ⟨b, hb, rfl⟩ := ha
      have e2 : (if b.plan.exchange d.1 d.2 = true then b.move d.1 (shift d q) else b).plan =
          b.plan := by split <;> simp
      rw [e2]; exact he q b hb

/-- Every transfer in a list satisfies the condition. -/
def HomeAll (N : Fin 3 → ℕ) : List Dir → Prop
  | [] => True
  | d :: ds => HomeOK N d ds ∧ HomeAll N ds

theorem foldl_inv (ds : List Dir) (hd : HomeAll N ds) (G : Proc N → Local D) (h : SendInv ds G) :
    SendInv [] (ds.foldl (fun G d => exchangeDir d G) G) := by
  induction ds generalizing G with
  | nil => exact h
  | cons d ds ih => exact ih hd.2 _ (exchangeDir_inv d ds hd.1 G h)

theorem homeAll_dirs : HomeAll N dirs := by
  refine ⟨?_, ?_, ?_, ?_, ?_, ?_, trivial⟩ <;> intro q hq he <;>
    simp only [homeAfter, settled, dirs, List.all_cons, List.all_nil]
  · have : q.exchange 0 1 = false := by
      have := hq 0; simp only at he
      cases h : q.exchange 0 1 <;> simp_all
    simp [this, Bool.and_comm]
  · simp [Bool.and_comm]
  · have : q.exchange 1 1 = false := by
      have := hq 1; simp only at he
      cases h : q.exchange 1 1 <;> simp_all
    simp [this, Bool.and_comm]
  · simp [Bool.and_comm]
  · have : q.exchange 2 1 = false := by
      have := hq 2; simp only at he
      cases h : q.exchange 2 1 <;> simp_all
    simp [this]
  · simp

theorem makePlan_excl (slab : Vec) (p : Proc N) (x : Vec) (q : Plan) : Excl (makePlan slab p x q) := by
  rintro i ⟨h0, h1⟩
  rw [makePlan_exchange] at h0 h1
  simp only [ECond, if_true] at h0
  simp only [ECond, if_neg (show ¬ ((1 : Fin 2) = 0) by decide)] at h1
  have := bound_width p i
  have := width_pos p i
  linarith

/-- After the exchange the send arrays contain exactly the local atoms with the corresponding
ghost flag. -/
theorem send_exchangeAtoms (slab : Vec) (G : Proc N → Local D) (q : Proc N) (d : Dir) :
    ((exchangeAtoms slab G q).send d).Perm
      (((exchangeAtoms slab G q).atoms.filter fun a => a.plan.ghost d.1 d.2).map (·.data)) := by
  have h := (foldl_inv dirs homeAll_dirs (fun p => planAll slab p (G p)) ⟨?_, ?_⟩).1 q d
  · simpa [settled, exchangeAtoms] using h
  · intro q d'
    apply List.Perm.of_eq
    rfl
  · intro q a ha
    simp only [planAll, List.mem_map] at ha
    obtain ⟨b, -, rfl⟩ := ha
    exact makePlan_excl _ _ _ _

end Verif.DdExchange
