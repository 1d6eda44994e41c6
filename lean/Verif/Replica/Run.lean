/-
Execution of the programs of replica exchange.
-/
import Verif.Replica.Model
import Mathlib.GroupTheory.Perm.Basic
import Mathlib.Logic.Equiv.Basic

set_option autoImplicit false

namespace Verif.Replica

open Verif.Cpp Verif.Cpp.Out Verif.Cpp.Net Verif.McMoves

/-! ### Choice of the permutation -/

/-- Random numbers as `uniformInt(0,n)`, `uniformInt(0,n-1)` and `uniform` return them (for
`n = 1` the second interval is empty and the value is its lower end). -/
def Draw.Valid (n : ℕ) (d : Draw) : Prop :=
  d.i < n ∧ (d.j < n - 1 ∨ n = 1 ∧ d.j = 0) ∧ 0 ≤ d.v ∧ d.v < 1

theorem second_lt {n : ℕ} (hn : 2 ≤ n) {d : Draw} (h : d.Valid n) : second d < n := by
  unfold second
  obtain ⟨h1, h2, _⟩ := h
  split <;> omega

theorem second_ne (d : Draw) : d.i ≠ second d := by
  unfold second
  split <;> omega

theorem swapAt_perm (σ : Equiv.Perm ℕ) (i j : ℕ) : swapAt σ i j = (σ * Equiv.swap i j : Equiv.Perm ℕ) := by
  funext x
  unfold swapAt
  rw [Equiv.Perm.mul_apply]
  by_cases hj : x = j
  · subst hj; simp
  · by_cases hi : x = i
    · subst hi; simp [hj]
    · simp [hi, hj, Equiv.swap_apply_of_ne_of_ne hi hj]

/-- A permutation of the ranks below `n`. -/
def Fixes (n : ℕ) (σ : Equiv.Perm ℕ) : Prop := ∀ i, n ≤ i → σ i = i

theorem Fixes.lt {n : ℕ} {σ : Equiv.Perm ℕ} (h : Fixes n σ) {i : ℕ} (hi : i < n) : σ i < n := by
  by_contra hc
  have h1 := h (σ i) (by omega)
  have := σ.injective h1
  omega

theorem Fixes.inv {n : ℕ} {σ : Equiv.Perm ℕ} (h : Fixes n σ) : Fixes n σ⁻¹ := by
  intro i hi
  rw [Equiv.Perm.inv_eq_iff_eq]
  exact (h i hi).symm

theorem Fixes.mul_swap {n : ℕ} {σ : Equiv.Perm ℕ} (h : Fixes n σ) {i j : ℕ} (hi : i < n)
    (hj : j < n) : Fixes n (σ * Equiv.swap i j) := by
  intro x hx
  rw [Equiv.Perm.mul_apply, Equiv.swap_apply_of_ne_of_ne (by omega) (by omega)]
  exact h x hx

theorem attempt_eq {n : ℕ} (hn : 2 ≤ n) (nPar : ℕ) (der par : ℕ → List ℝ) (st : (ℕ → ℕ) × ℕ)
    {d : Draw} (hv : d.Valid n) :
    attempt n nPar der par st d = ok (
      if metropolis (Real.exp (-weight nPar der par st.1 d.i (second d))) d.v = true
      then (swapAt st.1 d.i (second d), st.2 + 1) else st) := by
  unfold attempt
  rw [require_true hv.1, require_true (second_lt hn hv)]
  rfl

theorem sample_loop {n : ℕ} (hn : 2 ≤ n) (nPar : ℕ) (der par : ℕ → List ℝ) (ds : List Draw)
    (hd : ∀ d ∈ ds, d.Valid n) (σ : Equiv.Perm ℕ) (hσ : Fixes n σ) (a : ℕ) :
    ∃ (τ : Equiv.Perm ℕ) (b : ℕ), Fixes n τ ∧ a ≤ b ∧ b ≤ a + ds.length ∧
      loop (attempt n nPar der par) ds (⇑σ, a) = ok (⇑τ, b) := by
  induction ds generalizing σ a with
  | nil => exact ⟨σ, a, hσ, le_refl _, by simp, rfl⟩
  | cons d ds ih =>
    have hv := hd d (by simp)
    have h2 := second_lt hn hv
    rw [loop_cons]
    rw [attempt_eq hn nPar der par _ hv, ok_bind]
    by_cases hacc : metropolis (Real.exp (-weight nPar der par σ d.i (second d))) d.v = true
    · rw [if_pos hacc, swapAt_perm]
      obtain ⟨τ, b, h3, h4, h5, h6⟩ := ih (fun d' h' => hd d' (by simp [h']))
        (σ * Equiv.swap d.i (second d)) (hσ.mul_swap hv.1 h2) (a + 1)
      exact ⟨τ, b, h3, by omega, by rw [List.length_cons]; omega, h6⟩
    · rw [if_neg hacc]
      obtain ⟨τ, b, h3, h4, h5, h6⟩ := ih (fun d' h' => hd d' (by simp [h'])) σ hσ a
      exact ⟨τ, b, h3, h4, by rw [List.length_cons]; omega, h6⟩

theorem sample_ok {n : ℕ} (hn : 2 ≤ n) (nPar : ℕ) (der par : ℕ → List ℝ) (ds : List Draw)
    (hd : ∀ d ∈ ds, d.Valid n) :
    ∃ (σ : Equiv.Perm ℕ) (a : ℕ), Fixes n σ ∧ a ≤ ds.length ∧
      sample n nPar der par ds = ok (⇑σ, a) := by
  obtain ⟨τ, b, h1, _, h3, h4⟩ := sample_loop hn nPar der par ds hd 1 (fun i _ => rfl) 0
  exact ⟨τ, b, h1, by omega, h4⟩

theorem weight_congr (nPar : ℕ) {der par der' par' : ℕ → List ℝ} {n : ℕ}
    (h1 : ∀ i, i < n → der i = der' i) (h2 : ∀ i, i < n → par i = par' i) {σ : Equiv.Perm ℕ}
    (hσ : Fixes n σ) {i j : ℕ} (hi : i < n) (hj : j < n) :
    weight nPar der par σ i j = weight nPar der' par' σ i j := by
  unfold weight
  rw [h1 i hi, h1 j hj, h2 _ (hσ.lt hi), h2 _ (hσ.lt hj)]

theorem sample_congr {n : ℕ} (hn : 2 ≤ n) (nPar : ℕ) {der par der' par' : ℕ → List ℝ}
    (h1 : ∀ i, i < n → der i = der' i) (h2 : ∀ i, i < n → par i = par' i) (ds : List Draw)
    (hd : ∀ d ∈ ds, d.Valid n) :
    sample n nPar der par ds = sample n nPar der' par' ds := by
  unfold sample
  have key : ∀ (ds : List Draw) (σ : Equiv.Perm ℕ) (a : ℕ), Fixes n σ → (∀ d ∈ ds, d.Valid n) →
      loop (attempt n nPar der par) ds (⇑σ, a) = loop (attempt n nPar der' par') ds (⇑σ, a) := by
    intro ds
    induction ds with
    | nil => intro σ a _ _; rfl
    | cons d ds ih =>
      intro σ a hσ hd
      have hv := hd d (by simp)
      have h3 := second_lt hn hv
      rw [loop_cons, loop_cons]
      rw [attempt_eq hn nPar der par _ hv, attempt_eq hn nPar der' par' _ hv, ok_bind, ok_bind]
      simp only [weight_congr nPar h1 h2 hσ hv.1 h3]
      split
      · rw [swapAt_perm]
        exact ih _ _ (hσ.mul_swap hv.1 h3) (fun d' h' => hd d' (by simp [h']))
      · exact ih _ _ hσ (fun d' h' => hd d' (by simp [h']))
  exact key ds 1 0 (fun i _ => rfl) hd

/-! ### Phases -/

/-- Some number of steps. -/
def Reach (c d : Conf ℕ Msg (Out Res)) : Prop := ∃ n, Steps n c d

theorem Reach.trans {c d e : Conf ℕ Msg (Out Res)} (h1 : Reach c d) (h2 : Reach d e) :
    Reach c e := by
  obtain ⟨n, h1⟩ := h1
  obtain ⟨m, h2⟩ := h2
  exact ⟨n + m, h1.trans h2⟩

theorem Reach.rfl' (c : Conf ℕ Msg (Out Res)) : Reach c c := ⟨0, Steps.refl c⟩

theorem loadArrays_ok {nPar : ℕ} {d p : List ℝ} (h1 : d.length = nPar) (h2 : p.length = nPar) :
    loadArrays nPar d p = ok (d, p) := by
  unfold loadArrays
  rw [check_true h1, check_true h2]
  rfl

/-- Rank 0 receives data from the ranks of a list. -/
theorem reach_gather (nPar : ℕ) (der par : ℕ → List ℝ) (l : List ℕ) (hl : l.Nodup)
    (acc : (ℕ → List ℝ) × (ℕ → List ℝ)) (k : (ℕ → List ℝ) × (ℕ → List ℝ) → Prog)
    (c : Conf ℕ Msg (Out Res)) (hp : c.proc 0 = gather nPar l acc k)
    (hc : ∀ i ∈ l, c.chan i 0 dataTag = [.data (der i) (par i)])
    (h1 : ∀ i ∈ l, (der i).length = nPar) (h2 : ∀ i ∈ l, (par i).length = nPar) :
    Reach c ⟨Function.update c.proc 0 (k (fun i => if i ∈ l then der i else acc.1 i,
      fun i => if i ∈ l then par i else acc.2 i)),
      fun x y s => if x ∈ l ∧ y = 0 ∧ s = dataTag then [] else c.chan x y s⟩ := by
  induction l generalizing acc c with
  | nil =>
    have : (⟨Function.update c.proc 0 (k (fun i => if i ∈ ([] : List ℕ) then der i else acc.1 i,
      fun i => if i ∈ ([] : List ℕ) then par i else acc.2 i)),
      fun x y s => if x ∈ ([] : List ℕ) ∧ y = 0 ∧ s = dataTag then [] else c.chan x y s⟩ :
        Conf ℕ Msg (Out Res)) = c := by
      have e : k (fun i => if i ∈ ([] : List ℕ) then der i else acc.1 i,
        fun i => if i ∈ ([] : List ℕ) then par i else acc.2 i) = c.proc 0 := by
        rw [hp]; simp [gather]
      rw [e, Function.update_eq_self]
      simp
    rw [this]; exact Reach.rfl' c
  | cons a l ih =>
    rw [List.nodup_cons] at hl
    have hs := StepOf.recv c 0 a dataTag _ _ [] hp (hc a (by simp))
    simp only [loadArrays_ok (h1 a (by simp)) (h2 a (by simp))] at hs
    refine Reach.trans ⟨1, Steps.one ⟨0, hs⟩⟩ ?_
    have := ih hl.2 (Function.update acc.1 a (der a), Function.update acc.2 a (par a))
      ⟨Function.update c.proc 0 (gather nPar l
        (Function.update acc.1 a (der a), Function.update acc.2 a (par a)) k),
        pop c.chan a 0 dataTag⟩ (by simp)
      (by
        intro i hi
        have hne : i ≠ a := fun e => hl.1 (e ▸ hi)
        have := hc i (by simp [hi])
        simp only [pop, hne, false_and, if_false]
        exact this)
      (fun i hi => h1 i (by simp [hi])) (fun i hi => h2 i (by simp [hi]))
    convert this using 2
    · rw [Function.update_idem]
      congr 2
      refine Prod.ext ?_ ?_ <;>
      · funext i
        by_cases hi : i ∈ l
        · simp [hi]
        · by_cases hia : i = a
          · subst hia; simp [hi]
          · simp [hi, hia]
    · funext x y s
      by_cases h : y = 0 ∧ s = dataTag
      · obtain ⟨rfl, rfl⟩ := h
        by_cases hx : x = a
        · subst hx
          simp [hl.1, pop, hc x (by simp)]
        · simp [hx, pop]
      · have e1 : ¬ (x ∈ a :: l ∧ y = 0 ∧ s = dataTag) := fun hh => h hh.2
        have e2 : ¬ (x ∈ l ∧ y = 0 ∧ s = dataTag) := fun hh => h hh.2
        have e3 : ¬ (x = a ∧ y = 0 ∧ s = dataTag) := fun hh => h hh.2
        simp only [pop]
        rw [if_neg e1, if_neg e2, if_neg e3]

/-- Channels after the messages of rank 0 for the indices of a list. -/
def told (ch : ℕ → ℕ → ℕ → List Msg) (σ : Equiv.Perm ℕ) (l : List ℕ) : ℕ → ℕ → ℕ → List Msg :=
  fun x y s =>
    if x = 0 ∧ y ≠ 0 ∧ s = 0 ∧ y ∈ l then ch x y s ++ [.int (σ y)]
    else if x = 0 ∧ y ≠ 0 ∧ s = 1 ∧ σ⁻¹ y ∈ l then ch x y s ++ [.int (σ⁻¹ y)]
    else ch x y s

theorem told_cons (ch : ℕ → ℕ → ℕ → List Msg) (σ : Equiv.Perm ℕ) (a : ℕ) (l : List ℕ)
    (ha : a ∉ l) :
    told ch σ (a :: l) = told (told ch σ [a]) σ l := by
  funext x y s
  unfold told
  generalize σ⁻¹ y = z
  by_cases hx : x = 0 ∧ y ≠ 0
  · obtain ⟨hx, hy⟩ := hx
    by_cases h0 : s = 0
    · subst h0
      by_cases hya : y = a
      · subst hya; simp [hx, hy, ha]
      · simp [hx, hy, hya]
    · by_cases h1 : s = 1
      · subst h1
        by_cases hya : z = a
        · simp [hx, hy, hya, ha]
        · simp [hx, hy, hya]
      · simp [h0, h1]
  · have e : ∀ P : Prop, ¬ (x = 0 ∧ y ≠ 0 ∧ P) := fun P h => hx ⟨h.1, h.2.1⟩
    simp only [e, if_false]

theorem push_two (ch : ℕ → ℕ → ℕ → List Msg) (a b : ℕ) :
    (if b ≠ 0 then push (if a ≠ 0 then push ch 0 a 0 (.int b) else ch) 0 b 1 (.int a)
      else (if a ≠ 0 then push ch 0 a 0 (.int b) else ch)) =
    fun x y s => if x = 0 ∧ y ≠ 0 ∧ s = 0 ∧ y = a then ch x y s ++ [.int b]
      else if x = 0 ∧ y ≠ 0 ∧ s = 1 ∧ y = b then ch x y s ++ [.int a] else ch x y s := by
  funext x y s
  by_cases ha : a = 0
  · by_cases hb : b = 0
    · subst ha; subst hb
      have e1 : ∀ P : Prop, ¬ (x = 0 ∧ y ≠ 0 ∧ P ∧ y = 0) := by tauto
      simp only [e1, if_false, ne_eq, not_true_eq_false]
    · subst ha
      have e1 : ∀ P : Prop, ¬ (x = 0 ∧ y ≠ 0 ∧ P ∧ y = 0) := by tauto
      have e2 : (x = 0 ∧ y ≠ 0 ∧ s = 1 ∧ y = b) ↔ (x = 0 ∧ y = b ∧ s = 1) := by
        constructor
        · tauto
        · rintro ⟨h1, h2, h3⟩; exact ⟨h1, by omega, h3, h2⟩
      simp only [e1, if_false, ne_eq, not_true_eq_false, hb, not_false_eq_true, if_true, push, e2]
  · by_cases hb : b = 0
    · subst hb
      have e1 : ∀ P : Prop, ¬ (x = 0 ∧ y ≠ 0 ∧ P ∧ y = 0) := by tauto
      have e2 : (x = 0 ∧ y ≠ 0 ∧ s = 0 ∧ y = a) ↔ (x = 0 ∧ y = a ∧ s = 0) := by
        constructor
        · tauto
        · rintro ⟨h1, h2, h3⟩; exact ⟨h1, by omega, h3, h2⟩
      simp only [e1, if_false, ne_eq, not_true_eq_false, ha, not_false_eq_true, if_true, push, e2]
    · have e2 : (x = 0 ∧ y ≠ 0 ∧ s = 0 ∧ y = a) ↔ (x = 0 ∧ y = a ∧ s = 0) := by
        constructor
        · tauto
        · rintro ⟨h1, h2, h3⟩; exact ⟨h1, by omega, h3, h2⟩
      have e3 : (x = 0 ∧ y ≠ 0 ∧ s = 1 ∧ y = b) ↔ (x = 0 ∧ y = b ∧ s = 1) := by
        constructor
        · tauto
        · rintro ⟨h1, h2, h3⟩; exact ⟨h1, by omega, h3, h2⟩
      simp only [ne_eq, ha, hb, not_false_eq_true, if_true, push, e2, e3]
      by_cases h1 : x = 0 ∧ y = a ∧ s = 0
      · have h2 : ¬ (x = 0 ∧ y = b ∧ s = 1) := by rintro ⟨_, _, h⟩; omega
        rw [if_neg h2, if_pos h1, if_pos h1]
      · rw [if_neg h1, if_neg h1]

theorem push_told (ch : ℕ → ℕ → ℕ → List Msg) (σ : Equiv.Perm ℕ) (a : ℕ) :
    (if σ a ≠ 0 then push (if a ≠ 0 then push ch 0 a 0 (.int (σ a)) else ch) 0 (σ a) 1 (.int a)
      else (if a ≠ 0 then push ch 0 a 0 (.int (σ a)) else ch)) = told ch σ [a] := by
  rw [push_two]
  funext x y s
  unfold told
  have e3 : σ⁻¹ y = a ↔ y = σ a := by rw [Equiv.Perm.inv_eq_iff_eq]
  simp only [List.mem_singleton]
  by_cases h1 : x = 0 ∧ y ≠ 0 ∧ s = 0 ∧ y = a
  · rw [if_pos h1, if_pos h1, h1.2.2.2]
  · rw [if_neg h1, if_neg h1]
    by_cases h2 : x = 0 ∧ y ≠ 0 ∧ s = 1 ∧ y = σ a
    · rw [if_pos h2, if_pos ⟨h2.1, h2.2.1, h2.2.2.1, e3.2 h2.2.2.2⟩, e3.2 h2.2.2.2]
    · rw [if_neg h2, if_neg (fun h => h2 ⟨h.1, h.2.1, h.2.2.1, e3.1 h.2.2.2⟩)]

/-- Rank 0 sends the partners. -/
theorem reach_distribute (σ : Equiv.Perm ℕ) (l : List ℕ) (hl : l.Nodup) (sp rp : Option ℕ)
    (k : Option ℕ → Option ℕ → Prog) (c : Conf ℕ Msg (Out Res))
    (hp : c.proc 0 = distribute σ l sp rp k) :
    Reach c ⟨Function.update c.proc 0 (k (if 0 ∈ l then some (σ 0) else sp)
      (if σ⁻¹ 0 ∈ l then some (σ⁻¹ 0) else rp)), told c.chan σ l⟩ := by
  induction l generalizing sp rp c with
  | nil =>
    have : (⟨Function.update c.proc 0 (k (if 0 ∈ ([] : List ℕ) then some (σ 0) else sp)
      (if σ⁻¹ 0 ∈ ([] : List ℕ) then some (σ⁻¹ 0) else rp)), told c.chan σ []⟩ :
        Conf ℕ Msg (Out Res)) = c := by
      have e : k (if 0 ∈ ([] : List ℕ) then some (σ 0) else sp)
        (if σ⁻¹ 0 ∈ ([] : List ℕ) then some (σ⁻¹ 0) else rp) = c.proc 0 := by
        rw [hp]; simp [distribute]
      have e2 : told c.chan σ [] = c.chan := by funext x y s; simp [told]
      rw [e, Function.update_eq_self, e2]
    rw [this]; exact Reach.rfl' c
  | cons a l ih =>
    rw [List.nodup_cons] at hl
    -- the second message
    have step2 : ∀ (d : Conf ℕ Msg (Out Res)) (sp : Option ℕ),
        d.proc 0 = (if σ a ≠ 0 then .send (σ a) 1 (.int a) (distribute σ l sp rp k)
          else distribute σ l sp (some a) k) →
        Reach d ⟨Function.update d.proc 0 (distribute σ l sp (if σ a ≠ 0 then rp else some a) k),
          if σ a ≠ 0 then push d.chan 0 (σ a) 1 (.int a) else d.chan⟩ := by
      intro d sp hd
      by_cases h : σ a ≠ 0
      · rw [if_pos h] at hd
        rw [if_pos h, if_pos h]
        exact ⟨1, Steps.one ⟨0, StepOf.send d 0 (σ a) 1 _ _ hd⟩⟩
      · rw [if_neg h] at hd
        rw [if_neg h, if_neg h, ← hd, Function.update_eq_self]
        exact Reach.rfl' d
    have step1 : Reach c ⟨Function.update c.proc 0 (if σ a ≠ 0 then
          .send (σ a) 1 (.int a) (distribute σ l (if a ≠ 0 then sp else some (σ a)) rp k)
          else distribute σ l (if a ≠ 0 then sp else some (σ a)) (some a) k),
          if a ≠ 0 then push c.chan 0 a 0 (.int (σ a)) else c.chan⟩ := by
      by_cases h : a ≠ 0
      · simp only [distribute, if_pos h] at hp
        rw [if_pos h, if_pos h]
        exact ⟨1, Steps.one ⟨0, StepOf.send c 0 a 0 _ _ hp⟩⟩
      · simp only [distribute, if_neg h] at hp
        rw [if_neg h, if_neg h, ← hp, Function.update_eq_self]
        exact Reach.rfl' c
    refine step1.trans ((step2 _ (if a ≠ 0 then sp else some (σ a)) (by dsimp only; rw [Function.update_self])).trans ?_)
    have := ih hl.2 (if a ≠ 0 then sp else some (σ a)) (if σ a ≠ 0 then rp else some a)
      ⟨Function.update c.proc 0 (distribute σ l (if a ≠ 0 then sp else some (σ a))
        (if σ a ≠ 0 then rp else some a) k), told c.chan σ [a]⟩ (by simp)
    have e1 : (if σ a ≠ 0 then push (if a ≠ 0 then push c.chan 0 a 0 (.int (σ a)) else c.chan)
        0 (σ a) 1 (.int a) else (if a ≠ 0 then push c.chan 0 a 0 (.int (σ a)) else c.chan)) =
        told c.chan σ [a] := by
      exact push_told c.chan σ a
    dsimp only
    rw [e1, Function.update_idem]
    refine this.trans ?_
    rw [told_cons _ _ _ _ hl.1]
    dsimp only
    rw [Function.update_idem]
    have e4 : (if 0 ∈ l then some (σ 0) else if a ≠ 0 then sp else some (σ a)) =
        (if 0 ∈ a :: l then some (σ 0) else sp) := by
      by_cases h0 : 0 ∈ l
      · simp [h0]
      · by_cases ha : a = 0
        · subst ha; simp [h0]
        · simp [h0, ha, Ne.symm ha]
    have e5 : (if σ⁻¹ 0 ∈ l then some (σ⁻¹ 0) else if σ a ≠ 0 then rp else some a) =
        (if σ⁻¹ 0 ∈ a :: l then some (σ⁻¹ 0) else rp) := by
      by_cases h0 : σ⁻¹ 0 ∈ l
      · rw [if_pos h0, if_pos (List.mem_cons_of_mem _ h0)]
      · by_cases ha : σ a = 0
        · have : σ⁻¹ 0 = a := by rw [Equiv.Perm.inv_eq_iff_eq]; exact ha.symm
          rw [if_neg h0, if_neg (by simpa using ha), if_pos (by simp [this]), this]
        · have : σ⁻¹ 0 ≠ a := by
            rw [Ne, Equiv.Perm.inv_eq_iff_eq]; exact fun h => ha h.symm
          rw [if_neg h0, if_pos ha, if_neg (by rw [List.mem_cons]; tauto)]
    rw [e4, e5]
    exact Reach.rfl' _

end Verif.Replica
