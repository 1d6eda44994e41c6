/-
The groups of the structure factor tables and their orbits.
-/
import Verif.Crystal.Props
import Mathlib.Data.Fintype.Pi
import Mathlib.Algebra.Order.Ring.Abs
import Mathlib.Algebra.Order.Ring.Int

set_option autoImplicit false

namespace Verif.Crystal

open Verif.Cpp
open Verif.Cpp.Out

/-- Permutations of the axes that a lattice allows: all for a cubic one, those that
fix the first axis for a tetragonal one. -/
def Allowed : Lattice → Equiv.Perm (Fin 3) → Prop
  | .cubic, _ => True
  | .tetragonal, σ => σ 0 = 0
  | .orthorhombic, σ => σ = 1

instance (lat : Lattice) : DecidablePred (Allowed lat) := fun σ => by
  cases lat <;> unfold Allowed <;> infer_instance

theorem Allowed.one (lat : Lattice) : Allowed lat 1 := by
  cases lat <;> simp [Allowed]

theorem Allowed.trans {lat : Lattice} {σ τ : Equiv.Perm (Fin 3)} (h1 : Allowed lat σ)
    (h2 : Allowed lat τ) : Allowed lat (σ.trans τ) := by
  cases lat
  · trivial
  · change τ (σ 0) = 0
    have e1 : σ 0 = 0 := h1
    have e2 : τ 0 = 0 := h2
    rw [e1, e2]
  · have e1 : σ = 1 := h1
    have e2 : τ = 1 := h2
    subst e1; subst e2
    exact rfl

theorem Allowed.symm {lat : Lattice} {σ : Equiv.Perm (Fin 3)} (h1 : Allowed lat σ) :
    Allowed lat σ.symm := by
  cases lat
  · trivial
  · change σ.symm 0 = 0
    have e1 : σ 0 = 0 := h1
    rw [Equiv.symm_apply_eq, e1]
  · have e1 : σ = 1 := h1
    subst e1
    exact rfl

/-- Vectors related by symmetries of the lattice: equal up to signs and an allowed
permutation of the axes. -/
def Related (lat : Lattice) (u v : IVec) : Prop :=
  ∃ σ, Allowed lat σ ∧ ∀ i, |v i| = |u (σ i)|

/-- Signed permutation with an allowed permutation. -/
def SP (lat : Lattice) (A : Sym) : Prop :=
  ∃ (σ : Equiv.Perm (Fin 3)) (e : Fin 3 → ℤˣ), Allowed lat σ ∧
    ∀ i j, A i j = if j = σ i then (e i : ℤ) else 0

/-- The matrix of a permutation. -/
def permM (σ : Equiv.Perm (Fin 3)) : Sym := Matrix.of fun i j => if j = σ i then 1 else 0

/-- The matrix of a change of signs. -/
def signM (e : Fin 3 → ℤˣ) : Sym := Matrix.of fun i j => if j = i then (e i : ℤ) else 0

theorem SP_closed (lat : Lattice) : Closed {A | SP lat A} := by
  constructor
  · rintro A ⟨σ, e, hs, hA⟩ B ⟨τ, f, ht, hB⟩
    refine ⟨σ.trans τ, fun i => e i * f (σ i), hs.trans ht, fun i j => ?_⟩
    rw [mul_eq, Matrix.mul_apply, Finset.sum_eq_single (σ i)]
    · rw [hA, if_pos rfl, hB, mul_ite, mul_zero, Units.val_mul, Equiv.trans_apply]
    · intro k _ hk
      rw [hA, if_neg hk, zero_mul]
    · intro h; exact absurd (Finset.mem_univ _) h
  · rintro A ⟨σ, e, hs, hA⟩
    refine ⟨σ.symm, fun i => e (σ.symm i), hs.symm, fun i j => ?_⟩
    change A j i = _
    rw [hA]
    by_cases h : i = σ j
    · subst h; simp
    · rw [if_neg h, if_neg]
      rintro rfl
      simp at h

theorem SP_of {lat : Lattice} (σ : Equiv.Perm (Fin 3)) (e : Fin 3 → ℤˣ) {A : Sym}
    (hs : Allowed lat σ) (h : A = Matrix.of fun i j => if j = σ i then (e i : ℤ) else 0) :
    SP lat A :=
  ⟨σ, e, hs, fun i j => by rw [h]; rfl⟩

theorem SP_ident (lat : Lattice) : SP lat ident := SP_of 1 1 (Allowed.one lat) (by decide)

theorem SP_gens (lat : Lattice) : ∀ A ∈ gens lat, SP lat A := by
  intro A hA
  cases lat
  · simp only [gens, List.mem_cons, List.not_mem_nil, or_false] at hA
    rcases hA with rfl | rfl | rfl
    · exact SP_of (finRotate 3) 1 trivial (by decide)
    · exact SP_of 1 ![-1, 1, 1] trivial (by decide)
    · exact SP_of (Equiv.swap 0 1) 1 trivial (by decide)
  · simp only [gens, List.mem_cons, List.not_mem_nil, or_false] at hA
    rcases hA with rfl | rfl | rfl
    · exact SP_of 1 ![1, -1, 1] rfl (by decide)
    · exact SP_of 1 ![-1, 1, 1] rfl (by decide)
    · exact SP_of (Equiv.swap 1 2) 1 (by decide) (by decide)
  · simp only [gens, List.mem_cons, List.not_mem_nil, or_false] at hA
    rcases hA with rfl | rfl | rfl
    · exact SP_of 1 ![1, 1, -1] rfl (by decide)
    · exact SP_of 1 ![1, -1, 1] rfl (by decide)
    · exact SP_of 1 ![-1, 1, 1] rfl (by decide)

section
variable {X : Set Sym}

theorem flips_signs (hX : Closed X) (h1 : ident ∈ X)
    (h0 : signM ![-1, 1, 1] ∈ X) (h2 : signM ![1, -1, 1] ∈ X) (h3 : signM ![1, 1, -1] ∈ X)
    (e : Fin 3 → ℤˣ) : signM e ∈ X := by
  have hm : ∀ a ∈ X, ∀ b ∈ X, a * b ∈ X := fun a ha b hb => by
    rw [← mul_eq]; exact hX.1 a ha b hb
  rw [ident_eq] at h1
  have key : ∀ a b c : Bool, signM ![if a then -1 else 1, if b then -1 else 1, if c then -1 else 1]
      = (if a then signM ![-1, 1, 1] else 1) * ((if b then signM ![1, -1, 1] else 1)
        * (if c then signM ![1, 1, -1] else 1)) := by decide
  have he : ∃ a b c : Bool, e = ![if a then -1 else 1, if b then -1 else 1,
      if c then -1 else 1] := by
    have : ∀ i, ∃ a : Bool, e i = if a then -1 else 1 := by
      intro i
      rcases Int.units_eq_one_or (e i) with h | h
      · exact ⟨false, by rw [h]; rfl⟩
      · exact ⟨true, by rw [h]; rfl⟩
    obtain ⟨a, ha⟩ := this 0
    obtain ⟨b, hb⟩ := this 1
    obtain ⟨c, hc⟩ := this 2
    refine ⟨a, b, c, ?_⟩
    funext i
    fin_cases i
    · exact ha
    · exact hb
    · exact hc
  obtain ⟨a, b, c, rfl⟩ := he
  rw [key]
  refine hm _ ?_ _ (hm _ ?_ _ ?_)
  · cases a
    · exact h1
    · exact h0
  · cases b
    · exact h1
    · exact h2
  · cases c
    · exact h1
    · exact h3

end

theorem signs_perms {X : Set Sym} (hX : Closed X) {lat : Lattice} (hs : ∀ e, signM e ∈ X)
    (hp : ∀ σ, Allowed lat σ → permM σ ∈ X) {A : Sym} (hA : SP lat A) : A ∈ X := by
  obtain ⟨σ, e, ha, hA⟩ := hA
  have : A = mul (signM e) (permM σ) := by
    rw [mul_eq]
    ext i j
    rw [Matrix.mul_apply, Finset.sum_eq_single i, hA]
    · simp [signM, permM]
    · intro k _ hk
      simp [signM, hk]
    · intro h; exact absurd (Finset.mem_univ _) h
  rw [this]
  exact hX.1 _ (hs e) _ (hp σ ha)

/-- The generated groups are all signed permutations with allowed permutations. -/
theorem generated_gens (lat : Lattice) (A : Sym) : A ∈ generated (gens lat) ↔ SP lat A := by
  constructor
  · intro h
    exact h _ (SP_closed lat) (SP_ident lat) (SP_gens lat)
  · intro h X hX h1 hg
    have hm : ∀ a ∈ X, ∀ b ∈ X, a * b ∈ X := fun a ha b hb => by
      rw [← mul_eq]; exact hX.1 a ha b hb
    cases lat
    · have g0 : permM (finRotate 3) ∈ X := by
        have := hg !![0, 1, 0; 0, 0, 1; 1, 0, 0] (by simp [gens])
        have e : permM (finRotate 3) = !![0, 1, 0; 0, 0, 1; 1, 0, 0] := by decide
        rw [e]; exact this
      have g1 : signM ![-1, 1, 1] ∈ X := by
        have := hg !![-1, 0, 0; 0, 1, 0; 0, 0, 1] (by simp [gens])
        have e : signM ![-1, 1, 1] = !![-1, 0, 0; 0, 1, 0; 0, 0, 1] := by decide
        rw [e]; exact this
      have g2 : permM (Equiv.swap 0 1) ∈ X := by
        have := hg !![0, 1, 0; 1, 0, 0; 0, 0, 1] (by simp [gens])
        have e : permM (Equiv.swap 0 1) = !![0, 1, 0; 1, 0, 0; 0, 0, 1] := by decide
        rw [e]; exact this
      refine signs_perms hX (flips_signs hX h1 g1 ?_ ?_) ?_ h
      · have e : signM ![1, -1, 1]
            = permM (Equiv.swap 0 1) * (signM ![-1, 1, 1] * permM (Equiv.swap 0 1)) := by decide
        rw [e]; exact hm _ g2 _ (hm _ g1 _ g2)
      · have e : signM ![1, 1, -1] = permM (finRotate 3) * (signM ![-1, 1, 1]
            * (permM (finRotate 3) * permM (finRotate 3))) := by decide
        rw [e]; exact hm _ g0 _ (hm _ g1 _ (hm _ g0 _ g0))
      · intro σ _
        have e : ∀ σ : Equiv.Perm (Fin 3), permM σ = 1 ∨ permM σ = permM (finRotate 3) ∨
            permM σ = permM (finRotate 3) * permM (finRotate 3) ∨
            permM σ = permM (Equiv.swap 0 1) ∨
            permM σ = permM (Equiv.swap 0 1) * permM (finRotate 3) ∨
            permM σ = permM (finRotate 3) * permM (Equiv.swap 0 1) := by decide
        rcases e σ with e | e | e | e | e | e <;> rw [e]
        · rw [← ident_eq]; exact h1
        · exact g0
        · exact hm _ g0 _ g0
        · exact g2
        · exact hm _ g2 _ g0
        · exact hm _ g0 _ g2
    · have g0 : signM ![1, -1, 1] ∈ X := by
        have := hg !![1, 0, 0; 0, -1, 0; 0, 0, 1] (by simp [gens])
        have e : signM ![1, -1, 1] = !![1, 0, 0; 0, -1, 0; 0, 0, 1] := by decide
        rw [e]; exact this
      have g1 : signM ![-1, 1, 1] ∈ X := by
        have := hg !![-1, 0, 0; 0, 1, 0; 0, 0, 1] (by simp [gens])
        have e : signM ![-1, 1, 1] = !![-1, 0, 0; 0, 1, 0; 0, 0, 1] := by decide
        rw [e]; exact this
      have g2 : permM (Equiv.swap 1 2) ∈ X := by
        have := hg !![1, 0, 0; 0, 0, 1; 0, 1, 0] (by simp [gens])
        have e : permM (Equiv.swap 1 2) = !![1, 0, 0; 0, 0, 1; 0, 1, 0] := by decide
        rw [e]; exact this
      refine signs_perms hX (flips_signs hX h1 g1 g0 ?_) ?_ h
      · have e : signM ![1, 1, -1]
            = permM (Equiv.swap 1 2) * (signM ![1, -1, 1] * permM (Equiv.swap 1 2)) := by decide
        rw [e]; exact hm _ g2 _ (hm _ g0 _ g2)
      · intro σ hσ
        have e : ∀ σ : Equiv.Perm (Fin 3), σ 0 = 0 →
            permM σ = 1 ∨ permM σ = permM (Equiv.swap 1 2) := by decide
        rcases e σ hσ with e | e <;> rw [e]
        · rw [← ident_eq]; exact h1
        · exact g2
    · have g0 : signM ![1, 1, -1] ∈ X := by
        have := hg !![1, 0, 0; 0, 1, 0; 0, 0, -1] (by simp [gens])
        have e : signM ![1, 1, -1] = !![1, 0, 0; 0, 1, 0; 0, 0, -1] := by decide
        rw [e]; exact this
      have g1 : signM ![1, -1, 1] ∈ X := by
        have := hg !![1, 0, 0; 0, -1, 0; 0, 0, 1] (by simp [gens])
        have e : signM ![1, -1, 1] = !![1, 0, 0; 0, -1, 0; 0, 0, 1] := by decide
        rw [e]; exact this
      have g2 : signM ![-1, 1, 1] ∈ X := by
        have := hg !![-1, 0, 0; 0, 1, 0; 0, 0, 1] (by simp [gens])
        have e : signM ![-1, 1, 1] = !![-1, 0, 0; 0, 1, 0; 0, 0, 1] := by decide
        rw [e]; exact this
      refine signs_perms hX (flips_signs hX h1 g2 g1 g0) ?_ h
      intro σ hσ
      have e : σ = 1 := hσ
      have e2 : permM 1 = 1 := by decide
      rw [e, e2, ← ident_eq]; exact h1

theorem vecMul_SP {σ : Equiv.Perm (Fin 3)} {e : Fin 3 → ℤˣ} {A : Sym}
    (hA : ∀ i j, A i j = if j = σ i then (e i : ℤ) else 0) (u : IVec) (j : Fin 3) :
    Matrix.vecMul u A j = u (σ.symm j) * (e (σ.symm j) : ℤ) := by
  rw [Matrix.vecMul, dotProduct, Finset.sum_eq_single (σ.symm j)]
  · rw [hA, if_pos (by simp)]
  · intro k _ hk
    rw [hA, if_neg, mul_zero]
    rintro rfl
    exact hk (by simp)
  · intro h; exact absurd (Finset.mem_univ _) h

/-- The orbit of a vector. -/
theorem orbit_iff (lat : Lattice) (u v : IVec) :
    (∃ A, SP lat A ∧ v = Matrix.vecMul u A) ↔ Related lat u v := by
  constructor
  · rintro ⟨A, ⟨σ, e, ha, hA⟩, rfl⟩
    refine ⟨σ.symm, ha.symm, fun i => ?_⟩
    rw [vecMul_SP hA]
    rcases Int.units_eq_one_or (e (σ.symm i)) with h | h <;> rw [h] <;> simp
  · rintro ⟨σ, ha, h⟩
    have hc : ∀ i, ∃ c : ℤˣ, v i = u (σ i) * (c : ℤ) := by
      intro i
      rcases abs_eq_abs.1 (h i) with h | h
      · exact ⟨1, by rw [h]; simp⟩
      · exact ⟨-1, by rw [h]; simp⟩
    choose c hc using hc
    refine ⟨Matrix.of fun i j => if j = σ.symm i then (c (σ.symm i) : ℤ) else 0,
      ⟨σ.symm, fun i => c (σ.symm i), ha.symm, fun i j => rfl⟩, ?_⟩
    funext j
    have := vecMul_SP (σ := σ.symm) (e := fun i => c (σ.symm i))
      (A := Matrix.of fun i j => if j = σ.symm i then (c (σ.symm i) : ℤ) else 0)
      (fun i j => rfl) u j
    rw [this, hc]
    simp

/-- Number of symmetries of a lattice. -/
def order (lat : Lattice) : ℕ :=
  ((Finset.univ : Finset (Equiv.Perm (Fin 3))).filter (Allowed lat)).card * 8

theorem order_le (lat : Lattice) : order lat ≤ starCap lat := by
  cases lat <;> decide

/-- A list of different symmetries of the lattice is not longer than its order. -/
theorem length_le_order (lat : Lattice) {r : List Sym} (hn : r.Nodup) (h : ∀ A ∈ r, SP lat A) :
    r.length ≤ order lat := by
  rw [← List.toFinset_card_of_nodup hn]
  have : r.toFinset ⊆ Finset.image (fun p : Equiv.Perm (Fin 3) × (Fin 3 → ℤˣ) =>
      (Matrix.of fun i j => if j = p.1 i then (p.2 i : ℤ) else 0 : Sym))
      ((Finset.univ.filter (Allowed lat)) ×ˢ Finset.univ) := by
    intro A hA
    obtain ⟨σ, e, ha, hA⟩ := h A (List.mem_toFinset.1 hA)
    rw [Finset.mem_image]
    refine ⟨(σ, e), ?_, by ext i j; rw [hA]; rfl⟩
    simp [ha]
  refine le_trans (Finset.card_le_card this) (le_trans Finset.card_image_le ?_)
  rw [Finset.card_product]
  unfold order
  refine Nat.mul_le_mul le_rfl ?_
  rw [Finset.card_univ, Fintype.card_fun]
  decide

end Verif.Crystal
