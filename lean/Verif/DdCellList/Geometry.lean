import Verif.DdCellList.Listed
import Verif.Boundary.Geo

/-! # Reachable cell lists and geometry of the cells -/

set_option autoImplicit false

namespace Verif.DdCellList

open Verif.Boundary Verif.Cpp Verif.McCellList

variable {A : Type}

/-! ### Reachable states -/

/-- States of a cell list that can be reached by calls that do not throw, with positive cutoffs. -/
inductive CL.Reach : CL A → Prop
  | start (cells : ℤ → Cell) (atoms : ℕ → Option A) (v : Vec) : Reach (CL.start cells atoms v)
  | setAtomCapacity {s : CL A} (h : Reach s) (cap : ℕ) : Reach (s.setAtomCapacity cap)
  | makeGrid {s t : CL A} (h : Reach s) (lower upper cut : Vec) (n : ℤ) (hc : ∀ i, 0 < cut i)
      (ht : s.makeGrid lower upper cut n = .ok t) : Reach t
  | clear {s t : CL A} (h : Reach s) (ht : s.clear = .ok t) : Reach t
  | placeAtom {s t : CL A} (h : Reach s) (a : A) (x : Vec) (ht : s.placeAtom a x = .ok t) : Reach t
  | build {s t : CL A} (h : Reach s) (ht : s.build = .ok t) : Reach t

/-- What a successful call of `makeGrid` implies about its arguments. -/
theorem makeGrid_args {s t : CL A} {lower upper cut : Vec} {n : ℤ}
    (h : s.makeGrid lower upper cut n = .ok t) : 1 ≤ n ∧ n ≤ 4 ∧ ∀ i, cut i ≤ upper i - lower i := by
  unfold CL.makeGrid at h
  by_cases h1 : n < 1
  · rw [if_pos h1] at h; cases h
  · by_cases h2 : n > 4
    · rw [if_neg h1, if_pos h2] at h; cases h
    · by_cases h3 : ∃ i, upper i - lower i < 0 ∨ upper i - lower i < cut i
      · rw [if_neg h1, if_neg h2, if_pos h3] at h; cases h
      · push Not at h3
        exact ⟨by omega, by omega, fun i => (h3 i).2⟩

theorem initCells_topo (f : ℕ) (k : ℤ) (b : ℕ) (cells c' : ℤ → Cell)
    (h : initCells f k b cells = .ok c') :
    ∀ j, (c' j).id = (cells j).id ∧ (c' j).ghost = (cells j).ghost ∧ (c' j).next = (cells j).next := by
  induction f generalizing k b cells with
  | zero =>
    simp only [initCells, Except.ok.injEq] at h
    subst h; intro j; exact ⟨rfl, rfl, rfl⟩
  | succ f ih =>
    unfold initCells at h
    split_ifs at h
    intro j
    have := ih _ _ _ h j
    by_cases hj : j = k
    · subst hj; simpa only [Function.update_self] using this
    · simpa only [Function.update_of_ne hj] using this

theorem appendTags_topo (T : List (A × ℤ)) (s r : (ℤ → Cell) × (ℕ → Option A))
    (h : T.foldlM appendTag s = .ok r) :
    ∀ j, (r.1 j).id = (s.1 j).id ∧ (r.1 j).ghost = (s.1 j).ghost ∧ (r.1 j).next = (s.1 j).next := by
  induction T generalizing s with
  | nil =>
    simp only [List.foldlM_nil, pure, Except.pure, Except.ok.injEq] at h
    subst h; intro j; exact ⟨rfl, rfl, rfl⟩
  | cons t T ih =>
    simp only [List.foldlM_cons, bind, Except.bind] at h
    cases hs : appendTag s t with
    | error e => rw [hs] at h; simp at h
    | ok s' =>
      rw [hs] at h
      intro j
      obtain ⟨i1, i2, i3⟩ := ih s' h j
      have : (s'.1 j).id = (s.1 j).id ∧ (s'.1 j).ghost = (s.1 j).ghost ∧ (s'.1 j).next = (s.1 j).next := by
        unfold appendTag at hs
        cases hb : (s.1 t.2).begin' with
        | none => simp [hb] at hs
        | some b =>
          simp only [hb] at hs
          split_ifs at hs
          simp only [Except.ok.injEq] at hs
          subst hs
          by_cases hj : j = t.2
          · subst hj; simp only [Function.update_self, and_self]
          · simp only [Function.update_of_ne hj, and_self]
      exact ⟨i1.trans this.1, i2.trans this.2.1, i3.trans this.2.2⟩

theorem CL.Reach.inv {s : CL A} (h : s.Reach) : Inv s := by
  induction h with
  | start cells atoms v => exact inv_start cells atoms v
  | setAtomCapacity h cap ih =>
    rename_i s
    unfold CL.setAtomCapacity
    split_ifs
    · exact SameTopo.inv (s := s) ⟨rfl, rfl, rfl, rfl, fun _ => ⟨rfl, rfl, rfl⟩⟩ ih
    · exact SameTopo.inv (s := s) ⟨rfl, rfl, rfl, rfl, fun _ => ⟨rfl, rfl, rfl⟩⟩ ih
    · exact ih
  | makeGrid h lower upper cut n hc ht ih =>
    obtain ⟨a1, a2, a3⟩ := makeGrid_args ht
    obtain ⟨t, h1, h2, h3⟩ := makeGrid_ok ih lower upper cut n a1 a2 hc a3
    rw [h1] at ht
    simp only [Except.ok.injEq] at ht
    subst ht
    have hsz := h2.link.size
    have hge := gridSize_ge h2.link.n h2.link.dim
    exact ⟨by omega, h2.link.ids, fun _ => h2.link⟩
  | clear h ht ih =>
    rename_i s t
    unfold CL.clear at ht
    split_ifs at ht
    simp only [Except.ok.injEq] at ht
    subst ht
    refine SameTopo.inv (s := s) ⟨rfl, rfl, rfl, rfl, fun k => ?_⟩ ih
    simp only
    split_ifs <;> exact ⟨rfl, rfl, rfl⟩
  | placeAtom h a x ht ih =>
    rename_i s t
    unfold CL.placeAtom at ht
    split_ifs at ht
    cases hx : s.cellIndexFromPosition x with
    | none =>
      simp only [hx, Except.ok.injEq] at ht
      subst ht
      exact SameTopo.inv (s := s) ⟨rfl, rfl, rfl, rfl, fun _ => ⟨rfl, rfl, rfl⟩⟩ ih
    | some k =>
      simp only [hx] at ht
      split_ifs at ht
      simp only [Except.ok.injEq] at ht
      subst ht
      refine SameTopo.inv (s := s) ⟨rfl, rfl, rfl, rfl, fun j => ?_⟩ ih
      by_cases hj : j = k
      · subst hj; simp only [Function.update_self, and_self]
      · simp only [Function.update_of_ne hj, and_self]
  | build h ht ih =>
    rename_i s t
    unfold CL.build at ht
    split_ifs at ht
    cases h1 : initCells (gridSize s.dim).toNat 0 0 s.cells with
    | error e => rw [h1] at ht; simp [Except.bind] at ht
    | ok c =>
      rw [h1] at ht
      simp only [Except.bind] at ht
      cases h2 : s.tags.foldlM appendTag (c, s.atoms) with
      | error e => rw [h2] at ht; simp at ht
      | ok r =>
        rw [h2] at ht
        simp only [Except.ok.injEq] at ht
        subst ht
        refine SameTopo.inv (s := s) ⟨rfl, rfl, rfl, rfl, fun j => ?_⟩ ih
        have i1 := initCells_topo _ _ _ _ _ h1 j
        have i2 := appendTags_topo _ _ _ h2 j
        exact ⟨i2.1.trans i1.1, i2.2.1.trans i1.2.1, i2.2.2.trans i1.2.2⟩

/-! ### Cells and distances -/

section Made

variable {s : CL A} {lower upper cut : Vec} {n : ℤ}

theorem Made.coord_eq (h : Made s lower upper cut n) (hc : ∀ i, 0 < cut i) (x : Vec) (i : Fin 3) :
    s.coord x i = ⌊(x i - lower i) / s.len i⌋ + n := by
  unfold CL.coord
  have hl := (h.len_pos hc i).ne'
  rw [h.lowerOuter i, show (x i - (lower i - (n : ℝ) * s.len i)) / s.len i =
    (x i - lower i) / s.len i + (n : ℝ) by field_simp; ring, Int.floor_add_intCast]

theorem Made.isLocal_iff (h : Made s lower upper cut n) (hc : ∀ i, 0 < cut i) (x : Vec) :
    IsLocal s.dim n (s.coord x) ↔ ∀ i, lower i ≤ x i ∧ x i < upper i := by
  unfold IsLocal
  refine forall_congr' fun i => ?_
  have hl := h.len_pos hc i
  have hu := h.upper_eq i
  rw [h.coord_eq hc x i, h.dim i]
  have e1 : n ≤ ⌊(x i - lower i) / s.len i⌋ + n ↔ 0 ≤ ⌊(x i - lower i) / s.len i⌋ := by omega
  have e2 : ⌊(x i - lower i) / s.len i⌋ + n <
      axisDim (upper i - lower i) (cut i) n + 2 * n - n ↔
      ⌊(x i - lower i) / s.len i⌋ < axisDim (upper i - lower i) (cut i) n := by omega
  rw [e1, e2, Int.floor_nonneg, Int.floor_lt, div_lt_iff₀ hl, le_div_iff₀ hl]
  constructor
  · rintro ⟨a, b⟩; constructor <;> nlinarith
  · rintro ⟨a, b⟩; constructor <;> nlinarith

theorem Made.cut_le (h : Made s lower upper cut n) (hc : ∀ i, 0 < cut i) (i : Fin 3) :
    cut i ≤ (n : ℝ) * s.len i := by
  have hn := h.one_le
  have hci := hc i
  have hcl := h.cutLe i
  have hm : (0 : ℝ) < axisDim (upper i - lower i) (cut i) n := by exact_mod_cast h.m_pos i
  have hn' : (0 : ℝ) < n := by exact_mod_cast (by omega : 0 < n)
  have hle : (axisDim (upper i - lower i) (cut i) n : ℝ) ≤ (upper i - lower i) * n / cut i := by
    unfold axisDim
    rw [trunc_of_nonneg (div_nonneg (mul_nonneg (by linarith) hn'.le) hci.le)]
    exact Int.floor_le _
  rw [le_div_iff₀ hci] at hle
  rw [h.len i, ← mul_div_assoc, le_div_iff₀ hm]
  linarith

theorem floor_sub_lt {a b : ℝ} : (|⌊a⌋ - ⌊b⌋| : ℤ) < |a - b| + 1 := by
  have h1 := Int.floor_le a
  have h2 := Int.lt_floor_add_one a
  have h3 := Int.floor_le b
  have h4 := Int.lt_floor_add_one b
  push_cast
  rcases abs_cases ((⌊a⌋ : ℝ) - ⌊b⌋) with ⟨e, _⟩ | ⟨e, _⟩ <;>
    rcases abs_cases (a - b) with ⟨e', _⟩ | ⟨e', _⟩ <;> rw [e, e'] <;> linarith

theorem Made.coord_diff (h : Made s lower upper cut n) (hc : ∀ i, 0 < cut i) (x y : Vec) (i : Fin 3) :
    ((|(s.coord y - s.coord x) i| : ℤ) : ℝ) < |y i - x i| / s.len i + 1 := by
  have hl := h.len_pos hc i
  rw [Pi.sub_apply]
  unfold CL.coord
  have := floor_sub_lt (a := (y i - s.lowerOuter i) / s.len i) (b := (x i - s.lowerOuter i) / s.len i)
  rw [← sub_div, show y i - s.lowerOuter i - (x i - s.lowerOuter i) = y i - x i by ring, abs_div,
    abs_of_pos hl] at this
  exact this

/-- **Cells of close atoms are near.** -/
theorem Made.near (h : Made s lower upper cut n) (hc : ∀ i, 0 < cut i) (x y : Vec)
    (h1 : ∀ i, |y i - x i| < cut i)
    (h2 : n = 1 ∨ ((y 0 - x 0) / cut 0) ^ 2 + ((y 1 - x 1) / cut 1) ^ 2 +
      ((y 2 - x 2) / cut 2) ^ 2 ≤ 1) :
    NearCell (fun i => s.len i / cut i) n (s.coord y - s.coord x) := by
  have hcoord : ∀ i, |(s.coord y - s.coord x) i| ≤ n := by
    intro i
    have hl := h.len_pos hc i
    have a1 := h.coord_diff hc x y i
    have a2 := h.cut_le hc i
    have a3 : |y i - x i| / s.len i < n := by
      rw [div_lt_iff₀ hl]; linarith [h1 i]
    have : ((|(s.coord y - s.coord x) i| : ℤ) : ℝ) < ((n + 1 : ℤ) : ℝ) := by push_cast at a1 ⊢; linarith
    have := Int.cast_lt.1 this
    omega
  refine ⟨hcoord, ?_⟩
  rcases h2 with h2 | h2
  · have z : ∀ i, eVal (s.len i / cut i) ((s.coord y - s.coord x) i) = 0 := by
      intro i
      unfold eVal
      split_ifs with h0
      · rfl
      · have b1 := Int.one_le_abs h0
        have b2 := hcoord i
        have : |(s.coord y - s.coord x) i| - 1 = 0 := by omega
        rw [this]; simp
    rw [z 0, z 1, z 2]; norm_num
  · have e : ∀ i, eVal (s.len i / cut i) ((s.coord y - s.coord x) i) ≤ ((y i - x i) / cut i) ^ 2 := by
      intro i
      unfold eVal
      split_ifs with h0
      · positivity
      · have hl := h.len_pos hc i
        have hci := hc i
        have a1 := h.coord_diff hc x y i
        have b1 := Int.one_le_abs h0
        have b1' : (1 : ℝ) ≤ ((|(s.coord y - s.coord x) i| : ℤ) : ℝ) := by exact_mod_cast b1
        rw [← sq]
        rw [← sq_abs ((y i - x i) / cut i), abs_div, abs_of_pos hci]
        apply pow_le_pow_left₀
        · push_cast at b1' ⊢
          exact mul_nonneg (div_nonneg hl.le hci.le) (by linarith)
        · rw [div_mul_eq_mul_div]
          apply div_le_div_of_nonneg_right _ hci.le
          have : ((|(s.coord y - s.coord x) i| : ℤ) : ℝ) - 1 < |y i - x i| / s.len i := by linarith
          rw [lt_div_iff₀ hl] at this
          push_cast at this ⊢
          nlinarith
    have := e 0
    have := e 1
    have := e 2
    linarith

theorem Made.inside_local (h : Made s lower upper cut n) (hc : ∀ i, 0 < cut i) {x : Vec}
    (hx : ∀ i, lower i ≤ x i ∧ x i < upper i) : s.Inside x := by
  intro i
  have a1 := h.cut_le hc i
  have a2 := hc i
  have a3 := hx i
  rw [h.lowerOuter i, h.upperOuter i]
  constructor <;> linarith

theorem Made.inside_near (h : Made s lower upper cut n) (hc : ∀ i, 0 < cut i) {x y : Vec}
    (hx : ∀ i, lower i ≤ x i ∧ x i < upper i) (hy : ∀ i, |y i - x i| < cut i) : s.Inside y := by
  intro i
  have a1 := h.cut_le hc i
  have a2 := hx i
  have a3 := abs_lt.1 (hy i)
  rw [h.lowerOuter i, h.upperOuter i]
  constructor <;> linarith [a3.1, a3.2]

theorem near_neg {q : Vec} {n : ℤ} {δ : IVec} (h : NearCell q n δ) : NearCell q n (-δ) := by
  obtain ⟨h1, h2⟩ := h
  have e : ∀ i, eVal (q i) ((-δ) i) = eVal (q i) (δ i) := by
    intro i; simp [eVal]
  exact ⟨fun i => by simpa using h1 i, by rw [e, e, e]; exact h2⟩

/-- Every near cell is covered by one of the stored strips. -/
theorem Made.covered (h : Made s lower upper cut n) {δ : IVec}
    (hδ : NearCell (fun i => s.len i / cut i) n δ) :
    ∃ o ∈ s.offsets, o.1 ≤ off s.dim δ ∧ off s.dim δ ≤ o.2 := by
  obtain ⟨r, hr, -, hexp⟩ := makeOffsets_spec s.dim (fun i => s.len i / cut i) n
  rw [h.offsets, hr]
  by_cases h0 : off s.dim δ = 0
  · exact ⟨(0, 0), by simp, by simp [h0], by simp [h0]⟩
  · have := mem_nearOffsets.2 ⟨h0, δ, hδ, rfl⟩
    rw [← hexp, List.mem_flatMap] at this
    obtain ⟨o, ho, h1⟩ := this
    have := mem_loop.1 h1
    exact ⟨o, by simp [ho], this.1, this.2⟩

end Made

end Verif.DdCellList
