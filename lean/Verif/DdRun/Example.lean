import Verif.DdRun.Props

/-! # C64: boundaries and a concrete case -/

set_option autoImplicit false

namespace Verif.DdRun

open Verif.Boundary Verif.DdExchange Verif.DdCellList Verif.Integrate Verif.DdChem

variable {ι : Type}

/-- Requirements on interactions. -/
structure Env.Pairs (y : Env ι) : Prop where
  range : 0 < y.range
  skin : 0 ≤ y.skin
  cut : ∀ i j, y.cutSq i j ≤ y.range ^ 2
  cut_symm : ∀ i j, y.cutSq i j = y.cutSq j i
  force_symm : ∀ i j r, y.forceOverR r i j = y.forceOverR r j i
  mask_symm : ∀ i j, y.masked i j → y.masked j i

/-- The parameters with an orthorhombic boundary. -/
noncomputable def Env.ortho (y : Env ι) (b : Ortho) : Env ι :=
  { y with L := b.lengths, cart := b.toCart, gen := b.toGen, lat := fun i t => b.applyShift 0 i t }

/-- The parameters with a monoclinic boundary, with one cell per cutoff. -/
noncomputable def Env.mono (y : Env ι) (b : Mono) : Env ι :=
  { y with L := b.lengths, cart := b.toCart, gen := b.toGen, lat := fun i t => b.applyShift 0 i t, n := 1 }

theorem ok_ortho {y : Env ι} (hy : y.Pairs) {b : Ortho} (hb : b.Reach) : (y.ortho b).OK where
  frame := frame_ortho hb y.n
  cart_gen := by
    intro x; funext i
    show x i * b.inv i * b.lengths i = x i
    rw [hb.ok.inv, inv_mul_cancel_right₀ (hb.ok.pos i).ne']
  gen_cart := by
    intro x; funext i
    show x i * b.lengths i * b.inv i = x i
    rw [hb.ok.inv, mul_inv_cancel_right₀ (hb.ok.pos i).ne']
  lat := by
    intro i t; funext j
    show b.applyShift 0 i t j = b.toCart _ j
    unfold Ortho.applyShift setc Ortho.toCart
    by_cases h : j = i
    · subst h; simp
    · simp [h]
  range := hy.range
  skin := hy.skin
  cut := hy.cut
  cut_symm := hy.cut_symm
  force_symm := hy.force_symm
  mask_symm := hy.mask_symm

theorem ok_mono {y : Env ι} (hy : y.Pairs) {b : Mono} (hb : b.Reach) : (y.mono b).OK where
  frame := frame_mono hb
  cart_gen := by
    intro x; funext i
    have h0 := (hb.ok.pos 0).ne'
    have h1 := (hb.ok.pos 1).ne'
    have h2 := (hb.ok.pos 2).ne'
    show b.toCart (b.toGen x) i = x i
    unfold Mono.toCart Mono.toGen
    fin_cases i <;> simp [hb.ok.inv, hb.ok.c3] <;> field_simp
    ring
  gen_cart := by
    intro x; funext i
    have h0 := (hb.ok.pos 0).ne'
    have h1 := (hb.ok.pos 1).ne'
    have h2 := (hb.ok.pos 2).ne'
    show b.toGen (b.toCart x) i = x i
    unfold Mono.toCart Mono.toGen
    fin_cases i <;> simp [hb.ok.inv, hb.ok.c3] <;> field_simp
    ring
  lat := by
    intro i t
    show b.applyShift 0 i t = b.toCart _
    unfold Mono.applyShift Mono.toCart
    fin_cases i <;> funext j <;> fin_cases j <;> simp
  range := hy.range
  skin := hy.skin
  cut := hy.cut
  cut_symm := hy.cut_symm
  force_symm := hy.force_symm
  mask_symm := hy.mask_symm

/-! ### Two atoms -/

/-- Two atoms with a linear force within a distance 1. -/
noncomputable def twoEnv (reverse : Bool) : Env (Fin 2) where
  L := 0
  cart := id
  gen := id
  lat := fun _ _ => 0
  n := 2
  range := 1
  skin := 1 / 5
  dt := 1 / 10
  mass := fun _ => 1
  masked := fun _ _ => False
  cutSq := fun _ _ => 1
  forceOverR := fun _ _ _ => 1
  reverse := reverse

theorem twoEnv_pairs (b : Bool) : (twoEnv b).Pairs := by
  refine ⟨?_, ?_, ?_, ?_, ?_, ?_⟩ <;> simp [twoEnv]

/-- Positions: the atoms are on different processors. -/
noncomputable def twoPos : Fin 2 → Vec := ![![24 / 5, 5, 5], ![27 / 5, 5, 5]]

/-- Velocities: the first atom moves towards the domain of the other processor. -/
noncomputable def twoVel : Fin 2 → Vec := ![![3, 0, 0], 0]

/-- Atoms on the two processors. -/
noncomputable def twoGiven : Proc grid2 → Local (Dat (Fin 2)) := fun p =>
  ⟨if (p 0).val = 0 then [⟨(0, twoVel 0), ![12 / 25, 1 / 2, 1 / 2], Plan.mk 0⟩]
    else [⟨(1, twoVel 1), ![27 / 50, 1 / 2, 1 / 2], Plan.mk 0⟩], fun _ => []⟩

theorem image_far {x : ℝ} {k : ℤ} (hk : k ≠ 0) (hx : |x| ≤ 5) : 25 ≤ (x - k * 10) ^ 2 := by
  obtain ⟨h1, h2⟩ := abs_le.1 hx
  rcases lt_or_gt_of_ne hk with h | h
  · have : (k : ℝ) ≤ -1 := by exact_mod_cast (by omega)
    nlinarith
  · have : (1 : ℝ) ≤ k := by exact_mod_cast (by omega)
    nlinarith

/-- Forces of two atoms that are near each other. -/
theorem two_field {bd : Ortho} (hl : bd.lengths = fun _ => 10) (b : Bool) {r : Fin 2 → Vec}
    (h : ∀ l, |r 0 l - r 1 l| ≤ 5) (h1 : normSq (r 0 - r 1) < 1) :
    ((twoEnv b).ortho bd).field r 0 = r 0 - r 1 ∧ ((twoEnv b).ortho bd).field r 1 = r 1 - r 0 := by
  have key : ∀ i j : Fin 2, (∀ l, |r i l - r j l| ≤ 5) → normSq (r i - r j) < 1 →
      (∑ᶠ k : Fin 3 → ℤ, ((twoEnv b).ortho bd).pairForce i j (r i - (r j + ((twoEnv b).ortho bd).cart fun l => k l))) =
        r i - r j := by
    intro i j hij h1
    have hc : ∀ k : Fin 3 → ℤ, (((twoEnv b).ortho bd).cart fun l => (k l : ℝ)) = fun l => (k l : ℝ) * 10 := by
      intro k; funext l
      show (k l : ℝ) * bd.lengths l = _
      rw [hl]
    rw [finsum_eq_single _ (0 : Fin 3 → ℤ)]
    · rw [hc]
      have : (r j + fun l => (((0 : Fin 3 → ℤ) l : ℤ) : ℝ) * 10) = r j := by funext l; simp
      rw [this]
      unfold Env.pairForce
      have : normSq (r i - r j) < ((twoEnv b).ortho bd).cutSq i j := h1
      rw [if_pos this]
      show (1 : ℝ) • _ = _
      rw [one_smul]
    · intro k hk
      rw [hc]
      unfold Env.pairForce
      rw [if_neg]
      show ¬ _ < (1 : ℝ)
      obtain ⟨l, hkl⟩ : ∃ l, k l ≠ 0 := by
        by_contra hcon
        push Not at hcon
        exact hk (funext hcon)
      have h2 := image_far hkl (hij l)
      have e : ∀ l, (r i - (r j + fun l => (k l : ℝ) * 10)) l = r i l - r j l - k l * 10 := by
        intro l; simp only [Pi.sub_apply, Pi.add_apply]; ring
      rw [not_lt]
      unfold normSq
      rw [e, e, e]
      fin_cases l <;> simp only [Fin.zero_eta, Fin.mk_one, Fin.reduceFinMk] at h2 <;>
        nlinarith [sq_nonneg (r i 0 - r j 0 - k 0 * 10), sq_nonneg (r i 1 - r j 1 - k 1 * 10), sq_nonneg (r i 2 - r j 2 - k 2 * 10)]
  unfold Env.field
  rw [Fin.sum_univ_two, Fin.sum_univ_two]
  have n1 : ¬ ((0 : Fin 2) ≠ 0 ∧ ¬ ((twoEnv b).ortho bd).masked 0 0) := by simp
  have n2 : ¬ ((1 : Fin 2) ≠ 1 ∧ ¬ ((twoEnv b).ortho bd).masked 1 1) := by simp
  have p1 : (1 : Fin 2) ≠ 0 ∧ ¬ ((twoEnv b).ortho bd).masked 0 1 := ⟨by decide, id⟩
  have p2 : (0 : Fin 2) ≠ 1 ∧ ¬ ((twoEnv b).ortho bd).masked 1 0 := ⟨by decide, id⟩
  rw [if_neg n1, if_neg n2, if_pos p1, if_pos p2, zero_add, add_zero, key 0 1 h h1,
    key 1 0 (fun l => by rw [abs_sub_comm]; exact h l) (by rw [← neg_sub, normSq_neg]; exact h1)]
  exact ⟨rfl, rfl⟩

theorem twoPos_diff : twoPos 0 - twoPos 1 = ![-(3 / 5), 0, 0] := by
  funext l
  fin_cases l <;> simp [twoPos]; norm_num

/-- The first step of the two atoms. -/
theorem two_orbit {bd : Ortho} (hl : bd.lengths = fun _ => 10) (b : Bool) :
    (((twoEnv b).ortho bd).orbit twoPos twoVel 1).1 = ![![5097 / 1000, 5, 5], ![5403 / 1000, 5, 5]] := by
  have hd : ∀ l, |twoPos 0 l - twoPos 1 l| ≤ 5 := by
    intro l
    have := congrFun twoPos_diff l
    rw [Pi.sub_apply] at this
    rw [this]
    fin_cases l <;> simp; norm_num [abs_of_pos]
  have hn : normSq (twoPos 0 - twoPos 1) < 1 := by
    rw [twoPos_diff]; simp [normSq]; norm_num
  obtain ⟨f0, f1⟩ := two_field hl b hd hn
  have f1' : ((twoEnv b).ortho bd).field twoPos 1 = -(twoPos 0 - twoPos 1) := by rw [f1]; abel
  rw [twoPos_diff] at f0 f1'
  unfold Env.orbit verlet kick drift
  simp only [Function.iterate_one]
  funext i
  fin_cases i
  · show twoPos 0 + ((1 : ℝ) / 10) • (twoVel 0 + ((1 : ℝ) / 10 / 2 / 1) • ((twoEnv b).ortho bd).field twoPos 0) = _
    rw [f0]
    funext l
    fin_cases l <;> simp [twoPos, twoVel]; norm_num
  · show twoPos 1 + ((1 : ℝ) / 10) • (twoVel 1 + ((1 : ℝ) / 10 / 2 / 1) • ((twoEnv b).ortho bd).field twoPos 1) = _
    rw [f1']
    funext l
    fin_cases l <;> simp [twoPos, twoVel]; norm_num

theorem grid2_ext {p q : Proc grid2} (h : (p 0).val = (q 0).val) : p = q := by
  funext i
  apply Fin.ext
  fin_cases i
  · exact h
  · have h1 : (p 1).val < 1 := (p 1).isLt
    have h2 : (q 1).val < 1 := (q 1).isLt
    show (p 1).val = (q 1).val
    omega
  · have h1 : (p 2).val < 1 := (p 2).isLt
    have h2 : (q 2).val < 1 := (q 2).isLt
    show (p 2).val = (q 2).val
    omega

theorem two_given {bd : Ortho} (hl : bd.lengths = fun _ => 10) (b : Bool) :
    Given grid2 ((twoEnv b).ortho bd) twoPos twoVel twoGiven where
  once := by
    intro i
    have hsub : ∀ c : Proc grid2 × ℕ, (∃ u, (twoGiven c.1).atoms[c.2]? = some u ∧ u.data.1 = i) → c.2 = 0 ∧ (c.1 0).val = i.val := by
      rintro ⟨p, k⟩ ⟨u, hu, rfl⟩
      have hlt : (p 0).val < 2 := (p 0).isLt
      have hk : k = 0 := by
        have := (List.getElem?_eq_some_iff.1 hu).1
        unfold twoGiven at this
        dsimp only at this
        split at this <;> simpa using this
      subst hk
      refine ⟨rfl, ?_⟩
      unfold twoGiven at hu
      dsimp only at hu ⊢
      split at hu
      · rename_i h0
        simp only [List.getElem?_cons_zero, Option.some.injEq] at hu
        rw [← hu, h0]; rfl
      · simp only [List.getElem?_cons_zero, Option.some.injEq] at hu
        rw [← hu]
        show (p 0).val = 1
        omega
    have hex : ∃ p : Proc grid2, (p 0).val = i.val := by
      fin_cases i
      · exact ⟨proc0, rfl⟩
      · exact ⟨proc1, rfl⟩
    obtain ⟨p, hp⟩ := hex
    refine ⟨(p, 0), ?_, ?_⟩
    · unfold twoGiven
      dsimp only
      rw [hp]
      fin_cases i
      · exact ⟨_, rfl, rfl⟩
      · exact ⟨_, rfl, rfl⟩
    · intro c hc
      obtain ⟨h1, h2⟩ := hsub c hc
      exact Prod.ext (grid2_ext (h2.trans hp.symm)) h1
  value := by
    intro p u hu
    have hc : ∀ x : Vec, ((twoEnv b).ortho bd).cart x = fun l => x l * 10 := by
      intro x; funext l
      show x l * bd.lengths l = _
      rw [hl]
    unfold twoGiven at hu
    dsimp only at hu
    split at hu
    · rw [List.mem_singleton] at hu
      subst hu
      refine ⟨rfl, 0, ?_⟩
      rw [hc, hc]
      funext l
      fin_cases l <;> simp [twoPos] <;> norm_num
    · rw [List.mem_singleton] at hu
      subst hu
      refine ⟨rfl, 0, ?_⟩
      rw [hc, hc]
      funext l
      fin_cases l <;> simp [twoPos] <;> norm_num
  reach := by
    intro p u hu l
    have hs : ((twoEnv b).ortho bd).slab l = 3 / 25 := by
      show (1 + 1 / 5 : ℝ) / bd.lengths l = _
      rw [hl]; norm_num
    have hlt : (p 0).val < 2 := (p 0).isLt
    have h1 : (p 1).val < 1 := (p 1).isLt
    have h2 : (p 2).val < 1 := (p 2).isLt
    rw [hs]
    unfold twoGiven at hu
    dsimp only at hu
    unfold bound
    split at hu
    · rename_i h0
      rw [List.mem_singleton] at hu
      subst hu
      have e1 : (p 1).val = 0 := by omega
      have e2 : (p 2).val = 0 := by omega
      fin_cases l
      · show (((p 0).val : ℝ) + _) * (1 / ((2 : ℕ) : ℝ)) - (1 / ((2 : ℕ) : ℝ) - _) ≤ (12 / 25 : ℝ) ∧
          (12 / 25 : ℝ) ≤ (((p 0).val : ℝ) + _) * (1 / ((2 : ℕ) : ℝ)) + (1 / ((2 : ℕ) : ℝ) - _)
        rw [h0]; norm_num
      · show (((p 1).val : ℝ) + _) * (1 / ((1 : ℕ) : ℝ)) - (1 / ((1 : ℕ) : ℝ) - _) ≤ (1 / 2 : ℝ) ∧
          (1 / 2 : ℝ) ≤ (((p 1).val : ℝ) + _) * (1 / ((1 : ℕ) : ℝ)) + (1 / ((1 : ℕ) : ℝ) - _)
        rw [e1]; norm_num
      · show (((p 2).val : ℝ) + _) * (1 / ((1 : ℕ) : ℝ)) - (1 / ((1 : ℕ) : ℝ) - _) ≤ (1 / 2 : ℝ) ∧
          (1 / 2 : ℝ) ≤ (((p 2).val : ℝ) + _) * (1 / ((1 : ℕ) : ℝ)) + (1 / ((1 : ℕ) : ℝ) - _)
        rw [e2]; norm_num
    · rename_i h0
      rw [List.mem_singleton] at hu
      subst hu
      have e0 : (p 0).val = 1 := by omega
      have e1 : (p 1).val = 0 := by omega
      have e2 : (p 2).val = 0 := by omega
      fin_cases l
      · show (((p 0).val : ℝ) + _) * (1 / ((2 : ℕ) : ℝ)) - (1 / ((2 : ℕ) : ℝ) - _) ≤ (27 / 50 : ℝ) ∧
          (27 / 50 : ℝ) ≤ (((p 0).val : ℝ) + _) * (1 / ((2 : ℕ) : ℝ)) + (1 / ((2 : ℕ) : ℝ) - _)
        rw [e0]; norm_num
      · show (((p 1).val : ℝ) + _) * (1 / ((1 : ℕ) : ℝ)) - (1 / ((1 : ℕ) : ℝ) - _) ≤ (1 / 2 : ℝ) ∧
          (1 / 2 : ℝ) ≤ (((p 1).val : ℝ) + _) * (1 / ((1 : ℕ) : ℝ)) + (1 / ((1 : ℕ) : ℝ) - _)
        rw [e1]; norm_num
      · show (((p 2).val : ℝ) + _) * (1 / ((1 : ℕ) : ℝ)) - (1 / ((1 : ℕ) : ℝ) - _) ≤ (1 / 2 : ℝ) ∧
          (1 / 2 : ℝ) ≤ (((p 2).val : ℝ) + _) * (1 / ((1 : ℕ) : ℝ)) + (1 / ((1 : ℕ) : ℝ) - _)
        rw [e2]; norm_num

theorem no_int {x : ℝ} (z : ℤ) {n : ℤ} (h1 : (n : ℝ) < x) (h2 : x < n + 1) : x ≠ z := by
  rintro rfl
  have : n < z := by exact_mod_cast h1
  have : z < n + 1 := by exact_mod_cast h2
  omega

theorem two_fits {bd : Ortho} (hb : bd.Reach) (hl : bd.lengths = fun _ => 10) (b : Bool) :
    Fits grid2 ((twoEnv b).ortho bd) (((twoEnv b).ortho bd).orbit twoPos twoVel) 1 where
  generic := by
    have hg : ∀ x : Vec, ((twoEnv b).ortho bd).gen x = fun l => x l / 10 := by
      intro x; funext l
      show x l * bd.inv l = _
      rw [hb.ok.inv, hl]; rfl
    have key : ∀ r : Fin 2 → Vec, (∀ i, 0 < r i 0 ∧ r i 0 < 10 ∧ r i 0 ≠ 5 ∧ r i 1 = 5 ∧ r i 2 = 5) →
        Generic grid2 ((twoEnv b).ortho bd) r := by
      intro r hr i l z
      obtain ⟨h0, h1, h2, h3, h4⟩ := hr i
      rw [hg]
      fin_cases l
      · show r i 0 / 10 * ((2 : ℕ) : ℝ) ≠ z
        rcases lt_or_gt_of_ne h2 with h | h
        · exact no_int z (n := 0) (by push_cast; linarith) (by push_cast; linarith)
        · exact no_int z (n := 1) (by push_cast; linarith) (by push_cast; linarith)
      · show r i 1 / 10 * ((1 : ℕ) : ℝ) ≠ z
        exact no_int z (n := 0) (by push_cast; linarith) (by push_cast; linarith)
      · show r i 2 / 10 * ((1 : ℕ) : ℝ) ≠ z
        exact no_int z (n := 0) (by push_cast; linarith) (by push_cast; linarith)
    intro k hk
    have : k = 0 ∨ k = 1 := by omega
    rcases this with rfl | rfl
    · refine key _ fun i => ?_
      show 0 < twoPos i 0 ∧ twoPos i 0 < 10 ∧ twoPos i 0 ≠ 5 ∧ twoPos i 1 = 5 ∧ twoPos i 2 = 5
      fin_cases i <;> simp [twoPos] <;> norm_num
    · refine key _ fun i => ?_
      rw [two_orbit hl]
      fin_cases i <;> simp <;> norm_num
  step := by
    refine ⟨1, by norm_num, ?_, ?_⟩
    · intro l
      have hs : ((twoEnv b).ortho bd).slab l = 3 / 25 := by
        show (1 + 1 / 5 : ℝ) / bd.lengths l = _
        rw [hl]; norm_num
      have hL : ((twoEnv b).ortho bd).L l = 10 := by show bd.lengths l = 10; rw [hl]
      have hk : ((twoEnv b).ortho bd).skin = 1 / 5 := rfl
      rw [hs, hL, hk]
      fin_cases l
      · show _ ≤ 1 / ((2 : ℕ) : ℝ) - _
        norm_num
      · show _ ≤ 1 / ((1 : ℕ) : ℝ) - _
        norm_num
      · show _ ≤ 1 / ((1 : ℕ) : ℝ) - _
        norm_num
    · intro k hk i
      obtain rfl : k = 0 := by omega
      rw [two_orbit hl]
      show normSq (_ - twoPos i) ≤ _
      fin_cases i <;> simp [normSq, twoPos] <;> norm_num
  thin := by
    right
    show 2 * ((1 + 1 / 5 : ℝ) / bd.lengths 2) ≤ 1 / ((1 : ℕ) : ℝ)
    rw [hl]; norm_num

/-- The hypotheses of the theorems hold, with either mode of communication, for a step in which an
atom moves to the domain of the other processor and the atoms feel each other. -/
example (b : Bool) : ∃ bd : Ortho, bd.Reach ∧ ((twoEnv b).ortho bd).OK ∧
    Given grid2 ((twoEnv b).ortho bd) twoPos twoVel twoGiven ∧
    Fits grid2 ((twoEnv b).ortho bd) (((twoEnv b).ortho bd).orbit twoPos twoVel) 1 ∧
    ((twoEnv b).ortho bd).field twoPos 0 ≠ 0 ∧
    twoPos 0 0 < 5 ∧ 5 < (((twoEnv b).ortho bd).orbit twoPos twoVel 1).1 0 0 ∧
    ∃ s0 s, Setup ((twoEnv b).ortho bd) twoGiven s0 ∧ Runs ((twoEnv b).ortho bd) s0 1 s := by
  obtain ⟨bd, hb, hl⟩ := reach_ortho (fun _ => 10) (fun _ => by norm_num)
  have ok := ok_ortho (twoEnv_pairs b) hb
  refine ⟨bd, hb, ok, two_given hl b, two_fits hb hl b, ?_, ?_, ?_,
    C64_completes ok (by show (1 : ℤ) ≤ 2; norm_num) (by show (2 : ℤ) ≤ 4; norm_num) (two_given hl b) (two_fits hb hl b)⟩
  · have hd : ∀ l, |twoPos 0 l - twoPos 1 l| ≤ 5 := by
      intro l
      have := congrFun twoPos_diff l
      rw [Pi.sub_apply] at this
      rw [this]
      fin_cases l <;> simp; norm_num [abs_of_pos]
    have hn : normSq (twoPos 0 - twoPos 1) < 1 := by
      rw [twoPos_diff]; simp [normSq]; norm_num
    rw [(two_field hl b hd hn).1, twoPos_diff]
    intro h
    have := congrFun h 0
    simp at this
  · simp [twoPos]; norm_num
  · rw [two_orbit hl]; simp; norm_num

end Verif.DdRun
