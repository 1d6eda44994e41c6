/-
C85: atoms, bonds, angles, the table of biases and rejected moves.
-/
import Verif.Bridge.Model
import Mathlib.Tactic.Linarith
import Mathlib.Tactic.Ring
import Mathlib.Tactic.FieldSimp
import Mathlib.Tactic.NormNum
import Mathlib.Tactic.Push
import Mathlib.Algebra.Order.Floor.Ring

set_option autoImplicit false

namespace Verif.Bridge

open Verif.Cpp
open Verif.Cpp.Out

/-- **C85 (too long).**  A segment of all atoms but one, or more, is refused. -/
theorem C85_refused (length n k : ℤ) (up : Bool) (h : length - 2 < n) :
    chooseLinear length n k up = throw ∧ chooseRing length n k up = throw := by
  have h' : ¬ ¬ n > length - 2 := not_not.2 h
  constructor
  · unfold chooseLinear; rw [check_false h']; rfl
  · unfold chooseRing; rw [check_false h']; rfl

/-- **C85 (linear chains).**  The segment has `n` atoms, none of them an end of the chain, and its
neighbours exist; `bonds[n - j]` is the type of the bond of the atom in place `j` with the one before it,
and `bonds[0]` of the bond of the last atom with the one after it. -/
theorem C85_linear (length n k : ℤ) (up : Bool) (h1 : 1 ≤ n) (h2 : n ≤ length - 2) (hk : 1 ≤ k)
    (hk' : k < length - n) :
    ∃ g, chooseLinear length n k up = ok g ∧ (g.sign = 1 ∨ g.sign = -1)
      ∧ g.endId = g.beginId + (n - 1) * g.sign
      ∧ (∀ j, 0 ≤ j → j < n → 1 ≤ g.beginId + j * g.sign ∧ g.beginId + j * g.sign ≤ length - 2)
      ∧ (0 ≤ g.beginId - g.sign ∧ g.beginId - g.sign ≤ length - 1)
      ∧ (0 ≤ g.endId + g.sign ∧ g.endId + g.sign ≤ length - 1)
      ∧ (∀ j, 0 ≤ j → j < n → bondLinear g (n - j)
          = min (g.beginId + j * g.sign) (g.beginId + j * g.sign - g.sign))
      ∧ bondLinear g 0 = min g.endId (g.endId + g.sign) := by
  have h' : ¬ n > length - 2 := by omega
  cases up
  · refine ⟨⟨-1, k + (n - 1), k⟩, ?_, Or.inr rfl, ?_, ?_, ?_, ?_, ?_, ?_⟩
    · unfold chooseLinear; rw [check_true h']; rfl
    · show k = _; ring
    · intro j hj hj'; show 1 ≤ k + (n - 1) + j * -1 ∧ k + (n - 1) + j * -1 ≤ _; omega
    · show 0 ≤ k + (n - 1) - -1 ∧ k + (n - 1) - -1 ≤ _; omega
    · show 0 ≤ k + -1 ∧ k + -1 ≤ _; omega
    · intro j hj hj'
      show (if (-1 : ℤ) = 1 then _ else k - 1 + (n - j)) = min (k + (n - 1) + j * -1) (k + (n - 1) + j * -1 - -1)
      rw [if_neg (by omega)]; omega
    · show (if (-1 : ℤ) = 1 then _ else k - 1 + 0) = min k (k + -1)
      rw [if_neg (by omega)]; omega
  · refine ⟨⟨1, k, k + (n - 1)⟩, ?_, Or.inl rfl, ?_, ?_, ?_, ?_, ?_, ?_⟩
    · unfold chooseLinear; rw [check_true h']; rfl
    · show k + (n - 1) = _; ring
    · intro j hj hj'; show 1 ≤ k + j * 1 ∧ k + j * 1 ≤ _; omega
    · show 0 ≤ k - 1 ∧ k - 1 ≤ _; omega
    · show 0 ≤ k + (n - 1) + 1 ∧ k + (n - 1) + 1 ≤ _; omega
    · intro j hj hj'
      show (if (1 : ℤ) = 1 then k + (n - 1) - (n - j) else _) = min (k + j * 1) (k + j * 1 - 1)
      rw [if_pos rfl]; omega
    · show (if (1 : ℤ) = 1 then k + (n - 1) - 0 else _) = min (k + (n - 1)) (k + (n - 1) + 1)
      rw [if_pos rfl]; omega

/-- **C85 (`modId`).**  Above −n it is the remainder modulo `n`. -/
theorem C85_modId (id n : ℤ) (hn : 0 < n) (h : -n < id) : modId id n = id % n := by
  unfold modId
  by_cases h1 : id ≥ n
  · have h2 : id.tmod n = id % n := Int.tmod_eq_emod_of_nonneg (by omega)
    have h3 := Int.emod_nonneg id hn.ne'
    simp only [if_pos h1, h2]
    rw [if_neg (by omega)]
  · simp only [if_neg h1]
    by_cases h2 : id < 0
    · rw [if_pos h2, Int.tmod_eq_emod_of_nonneg (by omega), Int.emod_eq_of_lt (by omega) (by omega)]
      have : id % n = (id + n) % n := by rw [Int.add_emod_right]
      rw [this, Int.emod_eq_of_lt (by omega) (by omega)]
      ring
    · rw [if_neg h2, Int.emod_eq_of_lt (by omega) (by omega)]

/-- **C85 (`modId`, violated).**  For −n it returns n, which is no index; the moves do not use it there. -/
theorem C85_modId_violated (n : ℤ) (hn : 0 < n) : modId (-n) n = n := by
  unfold modId
  have h1 : ¬ -n ≥ n := by omega
  simp only [if_neg h1]
  rw [if_pos (by omega), neg_neg, Int.tmod_self]
  ring

theorem wrap_down (b n : ℤ) (h0 : 0 ≤ b) (h1 : b < n) : (if b - 1 < 0 then b - 1 + n else b - 1) = (b - 1) % n := by
  by_cases h : b - 1 < 0
  · rw [if_pos h]
    have : (b - 1) % n = (b - 1 + n) % n := by rw [Int.add_emod_right]
    rw [this, Int.emod_eq_of_lt (by omega) (by omega)]
  · rw [if_neg h, Int.emod_eq_of_lt (by omega) (by omega)]

theorem wrap_up (b n : ℤ) (h0 : 0 ≤ b) (h1 : b < n) : (if b + 1 ≥ n then b + 1 - n else b + 1) = (b + 1) % n := by
  by_cases h : b + 1 ≥ n
  · rw [if_pos h]
    have : b + 1 = n := by omega
    rw [this, Int.emod_self]
    omega
  · rw [if_neg h, Int.emod_eq_of_lt (by omega) (by omega)]

/-- Types of bonds that are stored for a segment of a ring. -/
theorem bondRing_eq (nAtom : ℤ) (hn : 0 < nAtom) (g : Segment) (h0 : 0 ≤ g.endId) (h1 : g.endId < nAtom)
    (i : ℕ) :
    bondRing nAtom g i = (if g.sign = 1 then g.endId - i else g.endId - 1 + i) % nAtom := by
  have hr : ∀ x : ℤ, 0 ≤ x % nAtom ∧ x % nAtom < nAtom :=
    fun x => ⟨Int.emod_nonneg x hn.ne', Int.emod_lt_of_pos x hn⟩
  induction i with
  | zero =>
    unfold bondRing
    by_cases hs : g.sign = 1
    · rw [if_pos hs, if_pos hs]
      rw [Int.emod_eq_of_lt (by simpa using h0) (by simpa using h1)]
      simp
    · rw [if_neg hs, if_neg hs, wrap_down _ _ h0 h1]
      simp
  | succ i ih =>
    unfold bondRing
    simp only [ih]
    by_cases hs : g.sign = 1
    · simp only [if_pos hs]
      rw [wrap_down _ _ (hr _).1 (hr _).2, Int.emod_sub_emod]
      congr 1
      push_cast
      ring
    · simp only [if_neg hs]
      rw [wrap_up _ _ (hr _).1 (hr _).2, Int.emod_add_emod]
      congr 1
      push_cast
      ring

/-- **C85 (rings).**  Indices of the segment and its neighbours are remainders modulo the number of atoms,
and the types of bonds are those of the bonds of each atom with the one before it, and of the last with
the one after; bond `b` joins `b` and `b + 1` modulo the number of atoms. -/
theorem C85_ring (nAtom : ℤ) (n : ℕ) (k : ℤ) (up : Bool) (h1 : 1 ≤ n) (h2 : (n : ℤ) ≤ nAtom - 2) (hk : 0 ≤ k)
    (hk' : k < nAtom) :
    ∃ g, chooseRing nAtom n k up = ok g ∧ (g.sign = 1 ∨ g.sign = -1)
      ∧ (0 ≤ g.beginId ∧ g.beginId < nAtom) ∧ (0 ≤ g.endId ∧ g.endId < nAtom)
      ∧ g.endId = (g.beginId + (n - 1) * g.sign) % nAtom
      ∧ (∀ j : ℤ, -1 ≤ j → j ≤ n →
          modId (g.beginId + j * g.sign) nAtom = (g.beginId + j * g.sign) % nAtom)
      ∧ (∀ j : ℕ, j < n → bondRing nAtom g (n - j)
          = (if g.sign = 1 then g.beginId + j * g.sign - 1 else g.beginId + j * g.sign) % nAtom)
      ∧ bondRing nAtom g 0 = (if g.sign = 1 then g.endId else g.endId - 1) % nAtom := by
  have h' : ¬ (n : ℤ) > nAtom - 2 := by omega
  have hn : 0 < nAtom := by omega
  have ht : (k + ((n : ℤ) - 1)).tmod nAtom = (k + ((n : ℤ) - 1)) % nAtom :=
    Int.tmod_eq_emod_of_nonneg (by omega)
  have hr : 0 ≤ (k + ((n : ℤ) - 1)) % nAtom ∧ (k + ((n : ℤ) - 1)) % nAtom < nAtom :=
    ⟨Int.emod_nonneg _ hn.ne', Int.emod_lt_of_pos _ hn⟩
  cases up
  · refine ⟨⟨-1, (k + ((n : ℤ) - 1)) % nAtom, k⟩, ?_, Or.inr rfl, hr, ⟨hk, hk'⟩, ?_, ?_, ?_, ?_⟩
    · unfold chooseRing; rw [check_true h', ht]; rfl
    · show k = ((k + ((n : ℤ) - 1)) % nAtom + (n - 1) * -1) % nAtom
      rw [Int.emod_add_emod]
      rw [show k + ((n : ℤ) - 1) + (n - 1) * -1 = k by ring, Int.emod_eq_of_lt hk hk']
    · intro j hj hj'
      exact C85_modId _ _ hn (by show -nAtom < (k + ((n : ℤ) - 1)) % nAtom + j * -1; omega)
    · intro j hj
      rw [bondRing_eq nAtom hn _ hk hk']
      show (if (-1 : ℤ) = 1 then _ else k - 1 + ((n - j : ℕ) : ℤ)) % nAtom
        = (if (-1 : ℤ) = 1 then _ else (k + ((n : ℤ) - 1)) % nAtom + j * -1) % nAtom
      rw [if_neg (by omega), if_neg (by omega), Int.emod_add_emod]
      congr 1
      omega
    · rw [bondRing_eq nAtom hn _ hk hk']
      simp
  · refine ⟨⟨1, k, (k + ((n : ℤ) - 1)) % nAtom⟩, ?_, Or.inl rfl, ⟨hk, hk'⟩, hr, ?_, ?_, ?_, ?_⟩
    · unfold chooseRing; rw [check_true h', ht]; rfl
    · show _ = (k + ((n : ℤ) - 1) * 1) % nAtom
      rw [mul_one]
    · intro j hj hj'
      exact C85_modId _ _ hn (by show -nAtom < k + j * 1; omega)
    · intro j hj
      rw [bondRing_eq nAtom hn _ hr.1 hr.2]
      show (if (1 : ℤ) = 1 then (k + ((n : ℤ) - 1)) % nAtom - ((n - j : ℕ) : ℤ) else _) % nAtom
        = (if (1 : ℤ) = 1 then k + j * 1 - 1 else _) % nAtom
      rw [if_pos rfl, if_pos rfl, Int.emod_sub_emod]
      congr 1
      omega
    · rw [bondRing_eq nAtom hn _ hr.1 hr.2]
      simp

/-- **C85 (rejection).**  If a move has changed positions of atoms of the segment only, restoring the stored
positions gives the positions before the move; `id` is the identity for chains, `modId` for rings. -/
theorem C85_restore {P : Type} (id : ℤ → ℤ) (g : Segment) (n : ℕ) (pos pos' : ℤ → P)
    (h : ∀ a, (∀ i : ℕ, i < n → a ≠ id (g.beginId + i * g.sign)) → pos' a = pos a) :
    restore id g n (store id g pos) pos' = pos := by
  have key : ∀ m : ℕ, ∀ a, restore id g m (store id g pos) pos' a
      = open Classical in if ∃ i : ℕ, i < m ∧ a = id (g.beginId + i * g.sign) then pos a else pos' a := by
    intro m
    induction m with
    | zero => intro a; simp [restore]
    | succ m ih =>
      intro a
      unfold restore at ih ⊢
      rw [List.range_succ, List.foldl_append, List.foldl_cons, List.foldl_nil, Function.update_apply]
      by_cases ha : a = id (g.beginId + m * g.sign)
      · rw [if_pos ha, if_pos ⟨m, by omega, ha⟩, store, ha]
      · rw [if_neg ha, ih]
        by_cases hx : ∃ i : ℕ, i < m ∧ a = id (g.beginId + i * g.sign)
        · obtain ⟨i, hi, e⟩ := hx
          rw [if_pos ⟨i, hi, e⟩, if_pos ⟨i, by omega, e⟩]
        · rw [if_neg hx, if_neg]
          rintro ⟨i, hi, e⟩
          rcases Nat.lt_succ_iff_lt_or_eq.1 hi with hlt | rfl
          · exact hx ⟨i, hlt, e⟩
          · exact ha e
  funext a
  rw [key n a]
  by_cases hx : ∃ i : ℕ, i < n ∧ a = id (g.beginId + i * g.sign)
  · rw [if_pos hx]
  · rw [if_neg hx]
    exact h a fun i hi e => hx ⟨i, hi, e⟩

/-! ### Angles -/

theorem endAngle_some (length : ℤ) (a p : ℤ) (h1 : 1 ≤ p) (h2 : p ≤ length - 2) :
    endAngle length true a p = ok () := by
  simp [endAngle, third, h1, h2]

/-- **C85 (angles).**  If the species has angles and the atom before the segment is not an end of the
chain, every angle that is looked up exists. -/
theorem C85_angles (length : ℤ) (n : ℕ) (g : Segment) (hs : g.sign = 1 ∨ g.sign = -1)
    (he : g.endId = g.beginId + (n - 1) * g.sign)
    (hp : 1 ≤ g.beginId - g.sign ∧ g.beginId - g.sign ≤ length - 2)
    (hend : 1 ≤ g.endId ∧ g.endId ≤ length - 2) :
    deleteAngles length true g n = ok () := by
  unfold deleteAngles
  have key : ∀ l : List ℕ, (∀ i ∈ l, i < n - 1) → loop (fun (_ : Unit) (i : ℕ) =>
      endAngle length true (g.endId - (i + 1) * g.sign) (g.endId - (i + 2) * g.sign)) l () = ok () := by
    intro l
    induction l with
    | nil => intro _; rfl
    | cons a l ih =>
      intro h
      have ha := h a List.mem_cons_self
      rw [loop_cons, endAngle_some, ok_bind]
      · exact ih fun i hi => h i (List.mem_cons_of_mem _ hi)
      · rcases hs with hs | hs <;> rw [hs] at he hp ⊢ <;> omega
      · rcases hs with hs | hs <;> rw [hs] at he hp ⊢ <;> omega
  exact key _ fun i hi => List.mem_range.1 hi

theorem deleteAngles_last (length : ℤ) (b : Bool) (n : ℕ) (g : Segment) (hn : 2 ≤ n)
    (h : endAngle length b (g.endId - ((n - 2 : ℕ) + 1) * g.sign) (g.endId - ((n - 2 : ℕ) + 2) * g.sign) = ub) :
    deleteAngles length b g n = ub := by
  unfold deleteAngles
  have e : List.range (n - 1) = List.range (n - 2) ++ [n - 2] := by
    rw [← List.range_succ]; congr 1; omega
  rw [e, loop_append]
  have tot : ∀ l : List ℕ, loop (fun (_ : Unit) (i : ℕ) =>
      endAngle length b (g.endId - (i + 1) * g.sign) (g.endId - (i + 2) * g.sign)) l () = ub
      ∨ loop (fun (_ : Unit) (i : ℕ) =>
      endAngle length b (g.endId - (i + 1) * g.sign) (g.endId - (i + 2) * g.sign)) l () = ok () := by
    intro l
    induction l with
    | nil => exact Or.inr rfl
    | cons a l ih =>
      rw [loop_cons]
      unfold endAngle
      cases third length b (g.endId - (a + 1) * g.sign) (g.endId - (a + 2) * g.sign) with
      | none => exact Or.inl rfl
      | some x => simpa [endAngle] using ih
  rcases tot (List.range (n - 2)) with h1 | h1
  · rw [h1]; rfl
  · rw [h1, ok_bind, loop_cons, h]; rfl

/-- **C85 (angles, violated).**  In a system with angles, a segment of two atoms or more that starts next to
the end of the chain reads a null pointer: the atom before it is the centre of no angle. -/
theorem C85_angles_violated (length : ℤ) (n : ℕ) (h1 : 2 ≤ n) (h2 : (n : ℤ) ≤ length - 2) (b : Bool) :
    ∃ g, chooseLinear length n 1 true = ok g ∧ deleteAngles length b g n = ub := by
  have h' : ¬ (n : ℤ) > length - 2 := by omega
  refine ⟨⟨1, 1, 1 + ((n : ℤ) - 1)⟩, by unfold chooseLinear; rw [check_true h']; rfl, ?_⟩
  apply deleteAngles_last _ _ _ _ h1
  show endAngle length b _ (1 + ((n : ℤ) - 1) - (((n - 2 : ℕ) : ℤ) + 2) * 1) = ub
  have e : 1 + ((n : ℤ) - 1) - (((n - 2 : ℕ) : ℤ) + 2) * 1 = 0 := by omega
  rw [e]
  simp [endAngle, third]

/-- **C85 (species without angles, violated).**  In a system with angles, the same happens for every
segment of two atoms or more of a species that has none. -/
theorem C85_no_angles_violated (length : ℤ) (n : ℕ) (h1 : 2 ≤ n) (g : Segment) :
    deleteAngles length false g n = ub := by
  apply deleteAngles_last _ _ _ _ h1
  simp [endAngle, third]

/-! ### Table -/

/-- **C85 (table).**  The index that is looked up lies in the table, and inside the range of the table the
distance lies in the bin around its entry. -/
theorem C85_table (lmin lmax l : ℝ) (h : lmin < lmax) :
    (0 ≤ binOf lmin lmax l ∧ binOf lmin lmax l ≤ maxBin - 1)
    ∧ (lmin < l → l < lmax → 1 ≤ binOf lmin lmax l ∧ binOf lmin lmax l ≤ maxBin - 2
      ∧ l20Table lmin lmax (binOf lmin lmax l) - (lmax - lmin) / 200 ≤ l
      ∧ l < l20Table lmin lmax (binOf lmin lmax l) + (lmax - lmin) / 200) := by
  have hd : 0 < (lmax - lmin) / 100 := by linarith
  have t0 : l20Table lmin lmax 0 = lmin := by simp [l20Table]
  have tl : l20Table lmin lmax (maxBin - 1) = lmax := by simp [l20Table, maxBin]
  have ti : ∀ i : ℤ, 1 ≤ i → i ≤ 100 →
      l20Table lmin lmax i = lmin - (lmax - lmin) / 100 / 2 + i * ((lmax - lmin) / 100) := by
    intro i h1 h2
    unfold l20Table maxBin
    rw [if_neg (by omega), if_neg (by omega)]
    norm_num
  have tw : l20Table lmin lmax 2 - l20Table lmin lmax 1 = (lmax - lmin) / 100 := by
    rw [ti 2 (by omega) (by omega), ti 1 (by omega) (by omega)]
    push_cast
    ring
  unfold binOf
  rw [t0, tl, tw]
  by_cases h1 : l ≤ lmin
  · rw [if_pos h1]
    exact ⟨by unfold maxBin; omega, fun h' => absurd h1 (not_le.2 h')⟩
  · rw [if_neg h1]
    by_cases h2 : l ≥ lmax
    · rw [if_pos h2]
      exact ⟨by unfold maxBin; omega, fun _ h' => absurd h2 (not_le.2 h')⟩
    · rw [if_neg h2]
      push Not at h1 h2
      set q := (l - lmin) / ((lmax - lmin) / 100) with hq
      have hqd : q * ((lmax - lmin) / 100) = l - lmin := div_mul_cancel₀ _ hd.ne'
      have q0 : 0 ≤ q := div_nonneg (by linarith) hd.le
      have q1 : q < 100 := by
        rw [hq, div_lt_iff₀ hd]
        linarith
      have f0 : 0 ≤ ⌊q⌋ := Int.floor_nonneg.2 q0
      have f1 : ⌊q⌋ < 100 := by rw [Int.floor_lt]; exact_mod_cast q1
      have g0 := Int.floor_le q
      have g1 := Int.lt_floor_add_one q
      refine ⟨by unfold maxBin; omega, fun _ _ => ⟨by omega, by unfold maxBin; omega, ?_, ?_⟩⟩
      · rw [ti _ (by omega) (by omega)]
        push_cast
        have := mul_le_mul_of_nonneg_right g0 hd.le
        linarith
      · rw [ti _ (by omega) (by omega)]
        push_cast
        have := mul_lt_mul_of_pos_right g1 hd
        linarith

end Verif.Bridge
