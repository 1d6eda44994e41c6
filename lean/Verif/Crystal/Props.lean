/-
Point groups: completion of signed permutations, validity, stars.
-/
import Verif.Crystal.Group
import Mathlib.Algebra.Group.Subgroup.Finite
import Mathlib.Data.Fintype.Perm
import Mathlib.Logic.Equiv.Fin.Rotate
import Mathlib.Data.Fintype.Units
import Mathlib.Data.Fintype.BigOperators
import Mathlib.Data.Matrix.Mul
import Mathlib.Tactic.FinCases
import Mathlib.Tactic.Linarith

set_option autoImplicit false

namespace Verif.Crystal

open Verif.Cpp
open Verif.Cpp.Out

/-! ### Relation to matrices -/

theorem mul_eq (A B : Sym) : mul A B = A * B := by
  ext i j
  simp [mul, Matrix.mul_apply, Fin.sum_univ_three]

theorem ident_eq : ident = 1 := by
  ext i j
  simp [ident, Matrix.one_apply]

theorem inverse_eq (A : Sym) : inverse A = A.transpose := rfl

theorem vecMul_eq (v : IVec) (A : Sym) : vecMul v A = Matrix.vecMul v A := by
  ext i
  simp [vecMul, Matrix.vecMul, dotProduct, Fin.sum_univ_three]

/-- The symmetries allowed by the documentation, PointSymmetry.h:66-72: one nonzero
element, 1 or -1, in each row and column. -/
def SignedPerm (A : Sym) : Prop :=
  ∃ (σ : Equiv.Perm (Fin 3)) (e : Fin 3 → ℤˣ), ∀ i j, A i j = if j = σ i then (e i : ℤ) else 0

theorem unit_sq (e : ℤˣ) : (e : ℤ) * (e : ℤ) = 1 := by
  rcases Int.units_eq_one_or e with rfl | rfl <;> simp

theorem signedPerm_of (σ : Equiv.Perm (Fin 3)) (e : Fin 3 → ℤˣ) {A : Sym}
    (h : A = Matrix.of fun i j => if j = σ i then (e i : ℤ) else 0) : SignedPerm A :=
  ⟨σ, e, fun i j => by rw [h]; rfl⟩

theorem SignedPerm.one : SignedPerm ident := by
  exact signedPerm_of 1 1 (by decide)

theorem SignedPerm.mul {A B : Sym} (hA : SignedPerm A) (hB : SignedPerm B) :
    SignedPerm (mul A B) := by
  obtain ⟨σ, e, hA⟩ := hA
  obtain ⟨τ, f, hB⟩ := hB
  refine ⟨σ.trans τ, fun i => e i * f (σ i), fun i j => ?_⟩
  rw [mul_eq, Matrix.mul_apply]
  rw [Finset.sum_eq_single (σ i)]
  · rw [hA, if_pos rfl, hB, mul_ite, mul_zero, Units.val_mul, Equiv.trans_apply]
  · intro k _ hk
    rw [hA, if_neg hk, zero_mul]
  · intro h; exact absurd (Finset.mem_univ _) h

theorem SignedPerm.inverse {A : Sym} (hA : SignedPerm A) : SignedPerm (inverse A) := by
  obtain ⟨σ, e, hA⟩ := hA
  refine ⟨σ.symm, fun i => e (σ.symm i), fun i j => ?_⟩
  change A j i = _
  rw [hA]
  by_cases h : i = σ j
  · subst h; simp
  · rw [if_neg h, if_neg]
    rintro rfl
    simp at h

theorem SignedPerm.mul_inverse {A : Sym} (hA : SignedPerm A) : Crystal.mul A (Crystal.inverse A) = ident := by
  obtain ⟨σ, e, hA⟩ := hA
  rw [mul_eq, ident_eq, inverse_eq]
  ext i j
  rw [Matrix.mul_apply]
  rw [Finset.sum_eq_single (σ i)]
  · rw [Matrix.transpose_apply, hA, if_pos rfl, hA, Matrix.one_apply]
    by_cases h : i = j
    · subst h; rw [if_pos rfl, if_pos rfl, unit_sq]
    · rw [if_neg h, if_neg (fun c => h (σ.injective c)), mul_zero]
  · intro k _ hk
    rw [hA, if_neg hk, zero_mul]
  · intro h; exact absurd (Finset.mem_univ _) h

/-- For these symmetries `inverse` is the inverse. -/
theorem C42_inverse {A : Sym} (hA : SignedPerm A) :
    A * inverse A = 1 ∧ inverse A * A = 1 := by
  refine ⟨?_, ?_⟩
  · rw [← mul_eq, hA.mul_inverse, ident_eq]
  · have := hA.inverse.mul_inverse
    rw [mul_eq, ident_eq] at this
    exact this

/-- All signed permutations. -/
def allSigned : Finset Sym :=
  Finset.image (fun p : Equiv.Perm (Fin 3) × (Fin 3 → ℤˣ) =>
    (Matrix.of fun i j => if j = p.1 i then (p.2 i : ℤ) else 0 : Sym)) Finset.univ

theorem mem_allSigned (A : Sym) : A ∈ allSigned ↔ SignedPerm A := by
  unfold allSigned SignedPerm
  rw [Finset.mem_image]
  constructor
  · rintro ⟨p, _, rfl⟩
    exact ⟨p.1, p.2, fun _ _ => rfl⟩
  · rintro ⟨σ, e, h⟩
    exact ⟨(σ, e), Finset.mem_univ _, by ext i j; rw [h]; rfl⟩

theorem allSigned_card : allSigned.card ≤ 48 := by
  unfold allSigned
  refine le_trans Finset.card_image_le ?_
  rw [Finset.card_univ, Fintype.card_prod, Fintype.card_perm, Fintype.card_fun]
  simp only [Fintype.card_fin]
  decide

theorem allSigned_closed : Closed {x | x ∈ allSigned} := by
  refine ⟨fun a ha b hb => ?_, fun a ha => ?_⟩
  · exact (mem_allSigned _).2 (((mem_allSigned a).1 ha).mul ((mem_allSigned b).1 hb))
  · exact (mem_allSigned _).2 ((mem_allSigned a).1 ha).inverse

/-! ### Validity -/

/-- `isValid` accepts exactly lists without repetition that contain the identity
and are closed; it never fails otherwise than by an exception. -/
theorem C42_isValid_iff (l : List Sym) :
    (isValid l = ok true ↔ ident ∈ l ∧ l.Nodup ∧ Closed {x | x ∈ l}) ∧
      (isValid l ≠ ok true → isValid l = Out.throw) := by
  have hpair : ∀ a i x, validPair l a i x = ok () ↔ (i ≠ x.2 → a ≠ x.1) ∧ mul a x.1 ∈ l := by
    intro a i x
    unfold validPair
    rw [bind_eq_ok]
    simp only [check_eq_ok, find_iff]
    constructor
    · rintro ⟨_, h1, h2⟩; exact ⟨h1, h2⟩
    · rintro ⟨h1, h2⟩; exact ⟨(), h1, h2⟩
  have helem : ∀ x, validElement l x = ok () ↔
      inverse x.1 ∈ l ∧ ∀ y ∈ l.zipIdx, (x.2 ≠ y.2 → x.1 ≠ y.1) ∧ mul x.1 y.1 ∈ l := by
    intro x
    unfold validElement
    rw [bind_eq_ok]
    simp only [check_eq_ok, find_iff, loop_unit_ok, hpair]
    constructor
    · rintro ⟨_, h1, h2⟩; exact ⟨h1, h2⟩
    · rintro ⟨h1, h2⟩; exact ⟨(), h1, h2⟩
  have hmem : ∀ a ∈ l, ∃ i, (a, i) ∈ l.zipIdx := by
    intro a ha
    obtain ⟨i, hi, rfl⟩ := List.mem_iff_getElem.1 ha
    exact ⟨i, List.mem_zipIdx_iff_getElem?.2 (by simp [hi])⟩
  have hmem' : ∀ x ∈ l.zipIdx, x.1 ∈ l := by
    intro x hx
    exact List.mem_of_getElem? (List.mem_zipIdx_iff_getElem?.1 hx)
  constructor
  · unfold isValid
    rw [bind_eq_ok]
    simp only [check_eq_ok, find_iff, bind_eq_ok]
    constructor
    · rintro ⟨_, h1, ⟨⟩, h2, _⟩
      simp only [loop_unit_ok, helem] at h2
      refine ⟨h1, ?_, ?_, ?_⟩
      · rw [List.nodup_iff_injective_getElem]
        rintro ⟨i, hi⟩ ⟨j, hj⟩ hij
        by_contra hne
        have hne' : i ≠ j := fun h => hne (by subst h; rfl)
        exact ((h2 (l[i], i) (List.mem_zipIdx_iff_getElem?.2 (by simp [hi]))).2 (l[j], j)
          (List.mem_zipIdx_iff_getElem?.2 (by simp [hj]))).1 hne' hij
      · intro a ha b hb
        obtain ⟨i, hi⟩ := hmem a ha
        obtain ⟨j, hj⟩ := hmem b hb
        exact ((h2 _ hi).2 _ hj).2
      · intro a ha
        obtain ⟨i, hi⟩ := hmem a ha
        exact (h2 _ hi).1
    · rintro ⟨h1, h2, h3, h4⟩
      refine ⟨(), h1, (), ?_, trivial⟩
      simp only [loop_unit_ok, helem]
      intro x hx
      refine ⟨h4 _ (hmem' x hx), fun y hy => ⟨?_, h3 _ (hmem' x hx) _ (hmem' y hy)⟩⟩
      intro hne he
      have e1 := List.mem_zipIdx_iff_getElem?.1 hx
      have e2 := List.mem_zipIdx_iff_getElem?.1 hy
      obtain ⟨l1, e1⟩ := List.getElem?_eq_some_iff.1 e1
      obtain ⟨l2, e2⟩ := List.getElem?_eq_some_iff.1 e2
      exact hne ((List.Nodup.getElem_inj_iff h2).1 (e1.trans (he.trans e2.symm)))
  · have hc : ∀ (p : Prop) [Decidable p], check p = ok () ∨ check p = Out.throw := by
      intro p _
      by_cases hp : p
      · exact Or.inl (check_true hp)
      · exact Or.inr (check_false hp)
    have hloop : ∀ {ι : Type} (f : ι → Out Unit) (m : List ι),
        (∀ x ∈ m, f x = ok () ∨ f x = Out.throw) →
        loop (fun (_ : Unit) a => f a) m () = ok () ∨
          loop (fun (_ : Unit) a => f a) m () = Out.throw := by
      intro ι f m
      induction m with
      | nil => intro _; exact Or.inl rfl
      | cons a m ih =>
        intro h
        rw [loop_cons]
        rcases h a (by simp) with h1 | h1 <;> rw [h1]
        · exact ih fun x hx => h x (by simp [hx])
        · exact Or.inr rfl
    intro hne
    unfold isValid at hne ⊢
    rcases hc (find l ident = true) with h | h <;> rw [h] at hne ⊢
    · rw [ok_bind] at hne ⊢
      have : ∀ x ∈ l.zipIdx, validElement l x = ok () ∨ validElement l x = Out.throw := by
        intro x _
        unfold validElement
        rcases hc (find l (inverse x.1) = true) with h | h <;> rw [h]
        · rw [ok_bind]
          refine hloop _ _ fun y _ => ?_
          unfold validPair
          rcases hc (x.2 ≠ y.2 → x.1 ≠ y.1) with h | h <;> rw [h]
          · exact hc _
          · exact Or.inr rfl
        · exact Or.inr rfl
      rcases hloop _ _ this with h | h <;> rw [h] at hne ⊢
      · exact absurd rfl hne
      · rfl
    · rfl

/-! ### Completion -/

/-- Elements of the group generated by some matrices, in the sense of group
theory: the subgroup of the invertible integer matrices. -/
def InGroup (l : List Sym) (A : Sym) : Prop :=
  ∃ u ∈ Subgroup.closure {u : Symˣ | (u : Sym) ∈ l}, (u : Sym) = A

theorem generated_signed {l : List Sym} (hl : ∀ A ∈ l, SignedPerm A) {A : Sym}
    (hA : A ∈ generated l) : SignedPerm A :=
  hA {x | SignedPerm x} ⟨fun _ ha _ hb => ha.mul hb, fun _ ha => ha.inverse⟩ SignedPerm.one hl

theorem generated_iff {l : List Sym} (hl : ∀ A ∈ l, SignedPerm A) (A : Sym) :
    A ∈ generated l ↔ InGroup l A := by
  constructor
  · intro h
    refine (h {x | SignedPerm x ∧ InGroup l x} ⟨?_, ?_⟩ ⟨SignedPerm.one, 1, one_mem _, ?_⟩ ?_).2
    · rintro a ⟨sa, u, hu, rfl⟩ b ⟨sb, v, hv, rfl⟩
      refine ⟨sa.mul sb, u * v, mul_mem hu hv, ?_⟩
      rw [mul_eq]; rfl
    · rintro a ⟨sa, u, hu, rfl⟩
      refine ⟨sa.inverse, u⁻¹, inv_mem hu, ?_⟩
      have h1 := (C42_inverse sa).1
      exact Units.inv_eq_of_mul_eq_one_right h1
    · rw [ident_eq]; rfl
    · intro a ha
      have := C42_inverse (hl a ha)
      exact ⟨hl a ha, ⟨a, inverse a, this.1, this.2⟩, Subgroup.subset_closure ha, rfl⟩
  · rintro ⟨u, hu, rfl⟩
    have key : (u : Sym) ∈ generated l ∧ ((u⁻¹ : Symˣ) : Sym) ∈ generated l := by
      induction hu using Subgroup.closure_induction with
      | mem x hx =>
        have hx' : (x : Sym) ∈ generated l := fun X _ _ h => h _ hx
        refine ⟨hx', ?_⟩
        have e : ((x⁻¹ : Symˣ) : Sym) = inverse (x : Sym) :=
          Units.inv_eq_of_mul_eq_one_right (C42_inverse (hl _ hx)).1
        rw [e]
        exact (generated_closed l).2 _ hx'
      | one =>
        have : ((1 : Symˣ) : Sym) ∈ generated l := by
          intro X _ h _
          have : ((1 : Symˣ) : Sym) = ident := ident_eq.symm
          rw [this]; exact h
        exact ⟨this, by rw [inv_one]; exact this⟩
      | mul x y _ _ hx hy =>
        refine ⟨?_, ?_⟩
        · have := (generated_closed l).1 _ hx.1 _ hy.1
          rw [mul_eq] at this; exact this
        · have := (generated_closed l).1 _ hy.2 _ hx.2
          rw [mul_eq] at this
          rw [mul_inv_rev]; exact this
      | inv x _ hx => exact ⟨hx.2, by rw [inv_inv]; exact hx.1⟩
    exact key.1

/-- From any signed permutations, completion ends after at most 48 passes with
exactly the group they generate, without repetition; at most 48 elements; and
`isValid` accepts it. -/
theorem C42_complete (l : List Sym) (hl : ∀ A ∈ l, SignedPerm A) :
    ∃ r, (∀ n, 48 ≤ n → makeCompleteGroup n (addAll newGroup l) = some r) ∧
      r.Nodup ∧ r.length ≤ 48 ∧ (∀ A, A ∈ r ↔ InGroup l A) ∧ isValid r = ok true := by
  obtain ⟨r, hr⟩ := complete_end (l := l) allSigned allSigned_closed
    ((mem_allSigned _).2 SignedPerm.one) (fun a ha => (mem_allSigned a).2 (hl a ha))
  have h48 := hr 48 allSigned_card
  obtain ⟨h1, h2, h3, h4, _, _⟩ := complete_sound _ h48
  refine ⟨r, fun n hn => hr n (le_trans allSigned_card hn), h1, ?_, ?_,
    (C42_isValid_iff r).1.2 ⟨h4, h1, h3⟩⟩
  · rw [← List.toFinset_card_of_nodup h1]
    refine le_trans (Finset.card_le_card ?_) allSigned_card
    intro x hx
    exact (mem_allSigned x).2 (generated_signed hl ((h2 x).1 (List.mem_toFinset.1 hx)))
  · intro A
    rw [h2, generated_iff hl]

/-- A sixfold rotation of a hexagonal lattice: it has order six, but its
transpose is not its inverse. -/
def hexagonal : Sym := !![1, -1, 0; 1, 0, 0; 0, 0, 1]

/-- In a hexagonal lattice, whose symmetries are no signed permutations, completion
never ends. -/
theorem C42_hexagonal_diverges :
    hexagonal ^ 6 = 1 ∧ hexagonal * inverse hexagonal ≠ 1 ∧
      ∀ n, makeCompleteGroup n (addAll newGroup [hexagonal]) = none := by
  refine ⟨by decide, by decide, fun n => ?_⟩
  by_contra hne
  obtain ⟨r, hr⟩ := Option.ne_none_iff_exists'.1 hne
  have hf := (C42_terminates_iff [hexagonal]).1 ⟨n, r, hr⟩
  let M : Sym := hexagonal * inverse hexagonal
  have hM : ∀ k : ℕ, M ^ k ∈ generated [hexagonal] := by
    intro k
    have hA : hexagonal ∈ generated [hexagonal] := fun X _ _ h => h _ (by simp)
    have hMg : M ∈ generated [hexagonal] := by
      have := (generated_closed [hexagonal]).1 _ hA _ ((generated_closed [hexagonal]).2 _ hA)
      rw [mul_eq] at this; exact this
    induction k with
    | zero => rw [pow_zero, ← ident_eq]; exact fun X _ h _ => h
    | succ k ih =>
      have := (generated_closed [hexagonal]).1 _ ih _ hMg
      rw [mul_eq] at this
      rw [pow_succ]; exact this
  have hent : ∀ k : ℕ, 0 < (M ^ k) 0 0 ∧ 0 ≤ (M ^ k) 0 1 ∧ (M ^ k) 0 0 < (M ^ (k + 1)) 0 0 := by
    have e00 : M 0 0 = 2 := by decide
    have e10 : M 1 0 = 1 := by decide
    have e20 : M 2 0 = 0 := by decide
    have e01 : M 0 1 = 1 := by decide
    have e11 : M 1 1 = 1 := by decide
    have e21 : M 2 1 = 0 := by decide
    have s0 : ∀ k : ℕ, (M ^ (k + 1)) 0 0 = (M ^ k) 0 0 * 2 + (M ^ k) 0 1 := by
      intro k
      rw [pow_succ, Matrix.mul_apply, Fin.sum_univ_three, e00, e10, e20]; ring
    have s1 : ∀ k : ℕ, (M ^ (k + 1)) 0 1 = (M ^ k) 0 0 + (M ^ k) 0 1 := by
      intro k
      rw [pow_succ, Matrix.mul_apply, Fin.sum_univ_three, e01, e11, e21]; ring
    have base : ∀ k : ℕ, 0 < (M ^ k) 0 0 ∧ 0 ≤ (M ^ k) 0 1 := by
      intro k
      induction k with
      | zero => rw [pow_zero]; decide
      | succ k ih => rw [s0, s1]; constructor <;> linarith [ih.1, ih.2]
    intro k
    refine ⟨(base k).1, (base k).2, ?_⟩
    rw [s0]; linarith [(base k).1, (base k).2]
  have hmono : StrictMono fun k : ℕ => (M ^ k) 0 0 :=
    strictMono_nat_of_lt_succ fun k => (hent k).2.2
  have hinj : Function.Injective fun k : ℕ => M ^ k := by
    intro a b hab
    apply hmono.injective
    have : M ^ a = M ^ b := hab
    change (M ^ a) 0 0 = (M ^ b) 0 0
    rw [this]
  exact (Set.infinite_of_injective_forall_mem hinj hM) hf

/-! ### Stars -/

theorem star_loop (cap : ℕ) (vs star : List IVec) (hn : star.Nodup)
    (hc : star.length + vs.length ≤ cap) :
    ∃ s, loop (starStep cap) vs star = ok s ∧ s.Nodup ∧ star <+: s ∧
      ∀ v, v ∈ s ↔ v ∈ star ∨ v ∈ vs := by
  induction vs generalizing star with
  | nil => exact ⟨star, rfl, hn, List.prefix_rfl, by simp⟩
  | cons v vs ih =>
    rw [loop_cons]
    rw [List.length_cons] at hc
    by_cases hv : v ∈ star
    · rw [starStep, if_pos hv, ok_bind]
      obtain ⟨s, h1, h2, h3, h4⟩ := ih star hn (by omega)
      refine ⟨s, h1, h2, h3, fun w => ?_⟩
      rw [h4, List.mem_cons]
      constructor
      · rintro (h | h)
        · exact Or.inl h
        · exact Or.inr (Or.inr h)
      · rintro (h | rfl | h)
        · exact Or.inl h
        · exact Or.inl hv
        · exact Or.inr h
    · rw [starStep, if_neg hv, require_true (by omega), ok_bind, ok_bind]
      obtain ⟨s, h1, h2, h3, h4⟩ := ih (star ++ [v])
        (List.Nodup.append hn (List.nodup_singleton v) (by
          intro a ha hb
          rw [List.mem_singleton] at hb
          exact hv (hb ▸ ha)))
        (by simp; omega)
      refine ⟨s, h1, h2, (List.prefix_append _ _).trans h3, fun w => ?_⟩
      rw [h4]; simp [or_assoc]

/-- A star is the orbit of its root, without repetition, if the array has room for
as many vectors as the group has elements; otherwise an exception is raised. -/
theorem C42_star (cap : ℕ) (l : List Sym) (root : IVec) :
    (l.length ≤ cap → ∃ s, makeStar cap l root = ok s ∧ s.Nodup ∧
      ∀ v, v ∈ s ↔ ∃ A ∈ l, v = Matrix.vecMul root A) ∧
    (cap < l.length → makeStar cap l root = Out.throw) := by
  constructor
  · intro h
    obtain ⟨s, h1, h2, _, h4⟩ := star_loop cap (l.map (vecMul root)) [] List.nodup_nil (by simpa)
    refine ⟨s, ?_, h2, fun v => ?_⟩
    · unfold makeStar
      rw [check_true h, ok_bind, h1]
    · rw [h4]
      simp only [List.not_mem_nil, false_or, List.mem_map]
      constructor
      · rintro ⟨A, hA, rfl⟩; exact ⟨A, hA, vecMul_eq _ _⟩
      · rintro ⟨A, hA, rfl⟩; exact ⟨A, hA, vecMul_eq _ _⟩
  · intro h
    unfold makeStar
    rw [check_false (by omega), throw_bind]

/-- The first vector of the star of a completed group is the root. -/
theorem star_head {cap : ℕ} {t : List Sym} {root : IVec} {s : List IVec}
    (h : makeStar cap (ident :: t) root = ok s) : ∃ s', s = root :: s' := by
  unfold makeStar at h
  obtain ⟨_, h1, h2⟩ := bind_eq_ok.1 h
  have hlen : (ident :: t).length ≤ cap := check_eq_ok.1 h1
  have hr : vecMul root ident = root := by
    rw [vecMul_eq, ident_eq, Matrix.vecMul_one]
  rw [List.map_cons, hr, loop_cons, starStep, if_neg (by simp),
    require_true (by simp at hlen ⊢; omega), ok_bind, ok_bind] at h2
  obtain ⟨s', h3, _, ⟨u, hu⟩, _⟩ := star_loop cap (t.map (vecMul root)) ([] ++ [root]) (by simp)
    (by simp at hlen ⊢; omega)
  rw [h3] at h2
  obtain rfl : s' = s := by injection h2
  exact ⟨u, by rw [← hu]; rfl⟩

/-- Stars of a completed group: every vector of a star has the same star, as a
set, so that stars are disjoint or equal. -/
theorem C42_star_orbit (l r : List Sym) (hl : ∀ A ∈ l, SignedPerm A) (n cap : ℕ)
    (hr : makeCompleteGroup n (addAll newGroup l) = some r) (u v : IVec) (s t : List IVec)
    (hs : makeStar cap r u = ok s) (ht : makeStar cap r v = ok t) (hv : v ∈ s) :
    ∀ w, w ∈ s ↔ w ∈ t := by
  obtain ⟨_, h2, h3, _, _, _⟩ := complete_sound n hr
  have hcap : r.length ≤ cap := by
    by_contra h
    rw [(C42_star cap r u).2 (by omega)] at hs
    exact absurd hs (by simp)
  obtain ⟨s', e1, _, m1⟩ := (C42_star cap r u).1 hcap
  obtain ⟨t', e2, _, m2⟩ := (C42_star cap r v).1 hcap
  obtain rfl : s' = s := by rw [hs] at e1; injection e1.symm
  obtain rfl : t' = t := by rw [ht] at e2; injection e2.symm
  obtain ⟨A, hA, rfl⟩ := (m1 v).1 hv
  intro w
  rw [m1, m2]
  constructor
  · rintro ⟨B, hB, rfl⟩
    refine ⟨mul (inverse A) B, h3.1 _ (h3.2 A hA) B hB, ?_⟩
    rw [mul_eq, Matrix.vecMul_vecMul, ← Matrix.mul_assoc,
      (C42_inverse (generated_signed hl ((h2 A).1 hA))).1, Matrix.one_mul]
  · rintro ⟨B, hB, rfl⟩
    refine ⟨mul A B, h3.1 A hA B hB, ?_⟩
    rw [mul_eq, Matrix.vecMul_vecMul]

/-! ### Examples -/

/-- The generators of the structure factor tables are signed permutations. -/
theorem gens_signed (lat : Lattice) : ∀ A ∈ gens lat, SignedPerm A := by
  cases lat
  · intro A hA
    simp only [gens, List.mem_cons, List.not_mem_nil, or_false] at hA
    rcases hA with rfl | rfl | rfl
    · exact signedPerm_of (finRotate 3) (1) (by decide)
    · exact signedPerm_of (1) (![-1, 1, 1]) (by decide)
    · exact signedPerm_of (Equiv.swap 0 1) (1) (by decide)
  · intro A hA
    simp only [gens, List.mem_cons, List.not_mem_nil, or_false] at hA
    rcases hA with rfl | rfl | rfl
    · exact signedPerm_of (1) (![1, -1, 1]) (by decide)
    · exact signedPerm_of (1) (![-1, 1, 1]) (by decide)
    · exact signedPerm_of (Equiv.swap 1 2) (1) (by decide)
  · intro A hA
    simp only [gens, List.mem_cons, List.not_mem_nil, or_false] at hA
    rcases hA with rfl | rfl | rfl
    · exact signedPerm_of (1) (![1, 1, -1]) (by decide)
    · exact signedPerm_of (1) (![1, -1, 1]) (by decide)
    · exact signedPerm_of (1) (![-1, 1, 1]) (by decide)

/-- Two mirrors generate a group of four elements. -/
example : makeCompleteGroup 5 (addAll newGroup [!![-1, 0, 0; 0, 1, 0; 0, 0, 1],
      !![1, 0, 0; 0, -1, 0; 0, 0, 1]])
    = some [1, !![-1, 0, 0; 0, 1, 0; 0, 0, 1], !![1, 0, 0; 0, -1, 0; 0, 0, 1],
      !![-1, 0, 0; 0, -1, 0; 0, 0, 1]] := by decide

/-- The star of (1,0,0) under them. -/
example : ∃ s, makeStar 4 [1, !![-1, 0, 0; 0, 1, 0; 0, 0, 1], !![1, 0, 0; 0, -1, 0; 0, 0, 1],
      !![-1, 0, 0; 0, -1, 0; 0, 0, 1]] ![1, 0, 0] = ok s ∧ s = [![1, 0, 0], ![-1, 0, 0]] :=
  ⟨_, rfl, by decide⟩

/-- A list that is not closed is refused. -/
example : isValid [1, !![0, 1, 0; 0, 0, 1; 1, 0, 0]] = Out.throw := by decide

end Verif.Crystal
