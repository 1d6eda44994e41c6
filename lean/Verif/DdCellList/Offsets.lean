import Verif.DdCellList.Model
import Verif.McCellList.Grid

/-! # The strips of neighbouring cells -/

set_option autoImplicit false

namespace Verif.DdCellList

open Verif.Boundary Verif.Cpp Verif.McCellList

theorem loop_succ {a b : ℤ} (h : a ≤ b + 1) : loop a (b + 1) = loop a b ++ [b + 1] := by
  unfold loop
  have e : (b + 1 - a + 1).toNat = (b - a + 1).toNat + 1 := by omega
  rw [e, List.range_succ, List.map_append]
  simp only [List.map_cons, List.map_nil]
  congr 2
  omega

theorem loop_self (a : ℤ) : loop a a = [a] := by
  unfold loop
  have e : (a - a + 1).toNat = 1 := by omega
  rw [e]; simp

theorem loop_empty {a b : ℤ} (h : b < a) : loop a b = [] := by
  unfold loop
  have e : (b - a + 1).toNat = 0 := by omega
  rw [e]; simp

theorem loop_append {a b c : ℤ} (h1 : a ≤ b + 1) (h2 : b ≤ c) :
    loop a c = loop a b ++ loop (b + 1) c := by
  obtain ⟨k, rfl⟩ : ∃ k : ℕ, c = b + k := ⟨(c - b).toNat, by omega⟩
  induction k with
  | zero => simp only [Nat.cast_zero, add_zero]; rw [loop_empty (a := b + 1) (by omega)]; simp
  | succ k ih =>
    have e : b + ((k + 1 : ℕ) : ℤ) = (b + k) + 1 := by push_cast; ring
    rw [e, loop_succ (by omega), loop_succ (a := b + 1) (by omega), ih (by omega)]
    simp

theorem loop_cons {a b : ℤ} (h : a ≤ b) : loop a b = a :: loop (a + 1) b := by
  rw [loop_append (b := a) (by omega) h, loop_self]; rfl

/-- Relative ids in a strip. -/
def expand (o : Strip) : List ℤ := loop o.1 o.2

/-- Offsets of the other cells that are near enough, in order. -/
def nearOffsets (v : List (Bool × ℤ)) : List ℤ :=
  (v.filter fun x => x.1 && decide (x.2 ≠ 0)).map Prod.snd

/-- A strip of the list, other than that of the cell itself. -/
def GoodStrip (o : Strip) : Prop := o.1 ≤ o.2 ∧ (o.2 < 0 ∨ 0 < o.1)

structure ScanOK (s : Scan) (L : List ℤ) : Prop where
  exp : s.finish.flatMap expand = 0 :: L
  good : ∃ r, s.offsets = (0, 0) :: r ∧ ∀ o ∈ r, GoodStrip o
  act : s.active = true → GoodStrip s.strip

theorem finish_exp (s : Scan) : s.finish.flatMap expand =
    s.offsets.flatMap expand ++ (if s.active then expand s.strip else []) := by
  unfold Scan.finish
  split_ifs <;> simp

theorem scanStep_ok {s : Scan} {L : List ℤ} (h : ScanOK s L) (x : Bool × ℤ) :
    ScanOK (scanStep s x) (L ++ nearOffsets [x]) := by
  obtain ⟨h1, ⟨r, hr, hg⟩, h3⟩ := h
  obtain ⟨b, o⟩ := x
  rw [finish_exp] at h1
  have close : s.active = true → ∀ t : Scan, t = { s with offsets := s.offsets ++ [s.strip], active := false } →
      ScanOK t L := by
    rintro ha t rfl
    rw [ha, if_pos rfl] at h1
    refine ⟨?_, ⟨r ++ [s.strip], by rw [hr]; rfl, ?_⟩, by simp⟩
    · rw [finish_exp]; simp only [List.flatMap_append, List.flatMap_cons, List.flatMap_nil,
        List.append_nil]
      simpa using h1
    · intro o ho
      rcases List.mem_append.1 ho with ho | ho
      · exact hg o ho
      · rw [List.mem_singleton.1 ho]; exact h3 ha
  unfold scanStep nearOffsets
  cases b with
  | false =>
    simp only [Bool.false_eq_true, if_false]
    simp only [List.filter_cons, Bool.false_and, Bool.false_eq_true, if_false, List.filter_nil,
      List.map_nil, List.append_nil]
    split_ifs with ha
    · exact close ha _ rfl
    · exact ⟨by rw [finish_exp]; exact h1, ⟨r, hr, hg⟩, h3⟩
  | true =>
    simp only [if_true, List.filter_cons, Bool.true_and, List.filter_nil]
    by_cases ho : o = 0
    · subst ho
      simp only [ne_eq, not_true_eq_false, if_false, decide_false, Bool.false_eq_true,
        List.map_nil, List.append_nil]
      split_ifs with ha
      · exact close ha _ rfl
      · exact ⟨by rw [finish_exp]; exact h1, ⟨r, hr, hg⟩, h3⟩
    · simp only [ne_eq, ho, not_false_eq_true, if_true, decide_true, List.map_cons, List.map_nil]
      split_ifs with ha hs
      · obtain ⟨g1, g2⟩ := h3 ha
        rw [ha, if_pos rfl] at h1
        refine ⟨?_, ⟨r, hr, hg⟩, fun _ => ⟨?_, ?_⟩⟩
        · rw [finish_exp]
          simp only [ha, if_true, expand]
          rw [hs, loop_succ (by omega), ← List.append_assoc]
          change s.offsets.flatMap expand ++ expand s.strip ++ _ = _
          rw [h1]; rfl
        · simp only; omega
        · simp only; omega
      · rw [ha, if_pos rfl] at h1
        refine ⟨?_, ⟨r ++ [s.strip], by rw [hr]; rfl, ?_⟩, fun _ => ⟨le_refl _, ?_⟩⟩
        · rw [finish_exp]
          simp only [ha, if_true, List.flatMap_append, List.flatMap_cons, List.flatMap_nil,
            List.append_nil]
          rw [h1]
          simp only [expand, loop_self, List.cons_append]
        · intro o ho
          rcases List.mem_append.1 ho with ho | ho
          · exact hg o ho
          · rw [List.mem_singleton.1 ho]; exact h3 ha
        · simp only; omega
      · simp only [Bool.not_eq_true] at ha
        rw [ha] at h1
        simp only [Bool.false_eq_true, if_false, List.append_nil] at h1
        refine ⟨?_, ⟨r, hr, hg⟩, fun _ => ⟨le_refl _, ?_⟩⟩
        · rw [finish_exp]
          simp only [if_true, h1, expand, loop_self, List.cons_append]
        · simp only; omega

theorem scan_ok (v : List (Bool × ℤ)) {s : Scan} {L : List ℤ} (h : ScanOK s L) :
    ScanOK (v.foldl scanStep s) (L ++ nearOffsets v) := by
  induction v generalizing s L with
  | nil => simpa [nearOffsets] using h
  | cons x v ih =>
    have h1 := ih (scanStep_ok h x)
    have e : L ++ nearOffsets [x] ++ nearOffsets v = L ++ nearOffsets (x :: v) := by
      rw [List.append_assoc]
      unfold nearOffsets
      rw [← List.map_append, ← List.filter_append]; rfl
    rw [e] at h1
    exact h1

theorem finish_good {s : Scan} {L : List ℤ} (h : ScanOK s L) :
    ∃ r, s.finish = (0, 0) :: r ∧ (∀ o ∈ r, GoodStrip o) ∧ r.flatMap expand = L := by
  obtain ⟨h1, ⟨r, hr, hg⟩, h3⟩ := h
  have h1' := h1
  unfold Scan.finish at h1 ⊢
  split_ifs at h1 ⊢ with ha
  · refine ⟨r ++ [s.strip], by rw [hr]; rfl, ?_, ?_⟩
    · intro o ho
      rcases List.mem_append.1 ho with ho | ho
      · exact hg o ho
      · rw [List.mem_singleton.1 ho]; exact h3 ha
    · rw [hr] at h1
      simpa [expand, loop_self] using h1
  · refine ⟨r, hr, hg, ?_⟩
    rw [hr] at h1
    simpa [expand, loop_self] using h1

/-- The strips cover exactly the cell itself, first, and then the other near cells in the order
of the loops. -/
theorem makeOffsets_spec (d : IVec) (q : Vec) (n : ℤ) :
    ∃ r, makeOffsets d q n = (0, 0) :: r ∧ (∀ o ∈ r, GoodStrip o) ∧
      r.flatMap expand = nearOffsets (visits d q n) := by
  have h0 : ScanOK ⟨[(0, 0)], (0, 0), false⟩ [] :=
    ⟨by simp [Scan.finish, expand, loop_self], ⟨[], rfl, by simp⟩, by simp⟩
  have h := finish_good (scan_ok (visits d q n) h0)
  rw [List.nil_append] at h
  exact h

/-! ### The number of strips -/

/-- Number of strips begun. -/
def Scan.count (s : Scan) : ℕ := s.finish.length

theorem count_eq (s : Scan) : s.count = s.offsets.length + (if s.active then 1 else 0) := by
  unfold Scan.count Scan.finish; split_ifs <;> simp

theorem count_far (v : List (Bool × ℤ)) (hv : ∀ x ∈ v, x.1 = false ∨ x.2 = 0) (s : Scan) :
    (v.foldl scanStep s).count = s.count := by
  induction v generalizing s with
  | nil => rfl
  | cons x v ih =>
    rw [List.foldl_cons, ih (fun y hy => hv y (List.mem_cons_of_mem _ hy)), count_eq, count_eq]
    have hx := hv x List.mem_cons_self
    unfold scanStep
    rcases hx with hx | hx
    · simp only [hx, Bool.false_eq_true, if_false]
      split_ifs <;> simp_all
    · simp only [hx, ne_eq, not_true_eq_false, if_false]
      split_ifs <;> simp_all

theorem count_run (a : ℤ) (m : ℕ) (hz : ∀ i : ℕ, i < m → a + (i : ℤ) ≠ 0) (s : Scan)
    (hs : s.active = true ∧ s.strip.2 + 1 = a) :
    (((List.range m).map fun i : ℕ => (true, a + (i : ℤ))).foldl scanStep s).count = s.count ∧
    ((((List.range m).map fun i : ℕ => (true, a + (i : ℤ))).foldl scanStep s).active = true ∧
     (((List.range m).map fun i : ℕ => (true, a + (i : ℤ))).foldl scanStep s).strip.2 + 1 = a + m) := by
  induction m with
  | zero => simpa using hs
  | succ m ih =>
    obtain ⟨i1, i2, i3⟩ := ih fun i hi => hz i (by omega)
    rw [List.range_succ, List.map_append, List.foldl_append]
    generalize ((List.range m).map fun i : ℕ => (true, a + (i : ℤ))).foldl scanStep s = t at *
    have h0 := hz m (by omega)
    simp only [List.map_cons, List.map_nil, List.foldl_cons, List.foldl_nil]
    have e : scanStep t (true, a + (m : ℤ)) = { t with strip := (t.strip.1, a + (m : ℤ)) } := by
      unfold scanStep
      simp only [if_true, ne_eq, h0, not_false_eq_true, i2, i3]
    rw [e]
    refine ⟨?_, i2, ?_⟩
    · rw [← i1, count_eq, count_eq]
    · push_cast; ring

theorem count_segment (a b : ℤ) (hz : ∀ k, a ≤ k → k ≤ b → k ≠ 0) (s : Scan) :
    (((loop a b).map fun k => (true, k)).foldl scanStep s).count ≤ s.count + 1 := by
  rcases lt_or_ge b a with h | h
  · rw [loop_empty h]; simp
  · rw [loop_cons h, List.map_cons, List.foldl_cons]
    have h1 : (scanStep s (true, a)).count ≤ s.count + 1 ∧ (scanStep s (true, a)).active = true ∧
        (scanStep s (true, a)).strip.2 + 1 = a + 1 := by
      have ha := hz a le_rfl h
      unfold scanStep
      rw [count_eq, count_eq]
      simp only [if_true, ne_eq, ha, not_false_eq_true]
      split_ifs <;> simp_all
    have h2 := count_run (a + 1) (b - (a + 1) + 1).toNat (fun i hi => hz _ (by omega) (by omega)) _
      h1.2
    unfold loop
    rw [List.map_map]
    have h3 := h2.1
    rw [show ((fun k : ℤ => (true, k)) ∘ fun k : ℕ => a + 1 + (k : ℤ)) =
      fun i : ℕ => (true, a + 1 + (i : ℤ)) from rfl]
    omega

/-- One row of the loop over `k`, given the largest `|k|` that is near. -/
theorem count_row (o n K : ℤ) (f : ℤ → Bool) (hK : -1 ≤ K) (hKn : K ≤ n) (hn : 0 ≤ n)
    (hf : ∀ k, f k = true ↔ |k| ≤ K) (s : Scan) :
    (((loop (-n) n).map fun k => (f k, o + k)).foldl scanStep s).count ≤
      s.count + (if |o| ≤ n then 2 else 1) := by
  have far : ∀ (l : List ℤ) (t : Scan), (∀ k ∈ l, f k = false) →
      ((l.map fun k => (f k, o + k)).foldl scanStep t).count = t.count := by
    intro l t hl
    apply count_far
    intro x hx
    obtain ⟨k, hk, rfl⟩ := List.mem_map.1 hx
    exact Or.inl (hl k hk)
  have seg : ∀ (a b : ℤ) (t : Scan), -K ≤ a → b ≤ K → (∀ k, a ≤ k → k ≤ b → o + k ≠ 0) →
      (((loop a b).map fun k => (f k, o + k)).foldl scanStep t).count ≤ t.count + 1 := by
    intro a b t ha hb hz
    have e : ((loop a b).map fun k => (f k, o + k)) = (loop (o + a) (o + b)).map fun k => (true, k) := by
      unfold loop
      rw [List.map_map, List.map_map]
      have e1 : (o + b - (o + a) + 1).toNat = (b - a + 1).toNat := by omega
      rw [e1]
      apply List.map_congr_left
      intro k hk
      rw [List.mem_range] at hk
      have : f (a + (k : ℤ)) = true := by
        rw [hf, abs_le]; omega
      simp only [Function.comp, this, Prod.mk.injEq, true_and]
      ring
    rw [e]
    apply count_segment
    intro k h1 h2
    have := hz (k - o) (by omega) (by omega)
    intro h; apply this; omega
  have ff : ∀ k, K < |k| → f k = false := by
    intro k hk
    by_contra h
    rw [Bool.not_eq_false, hf] at h
    omega
  rcases eq_or_lt_of_le hK with hK1 | hK1
  · rw [far _ _ (fun k _ => ff k (by have := abs_nonneg k; omega))]
    omega
  have split : loop (-n) n = loop (-n) (-K - 1) ++ (loop (-K) K ++ loop (K + 1) n) := by
    rw [loop_append (a := -n) (b := -K - 1) (c := n) (by omega) (by omega),
      loop_append (a := -K - 1 + 1) (b := K) (c := n) (by omega) (by omega)]
    simp
  rw [split, List.map_append, List.map_append, List.foldl_append, List.foldl_append]
  rw [far _ _ (fun k hk => ff k (by rw [mem_loop] at hk; rw [lt_abs]; omega))]
  have h1 := far (loop (-n) (-K - 1)) s
    (fun k hk => ff k (by rw [mem_loop] at hk; rw [lt_abs]; omega))
  rw [← h1]
  generalize ((loop (-n) (-K - 1)).map fun k => (f k, o + k)).foldl scanStep s = t
  by_cases ho : |o| ≤ n
  · rw [if_pos ho]
    by_cases hoK : |o| ≤ K
    · rw [abs_le] at hoK
      rw [loop_append (a := -K) (b := -o - 1) (c := K) (by omega) (by omega),
        loop_append (a := -o - 1 + 1) (b := -o) (c := K) (by omega) (by omega)]
      rw [List.map_append, List.map_append, List.foldl_append, List.foldl_append]
      have a1 := seg (-K) (-o - 1) t (by omega) (by omega) (fun k _ _ => by omega)
      generalize ((loop (-K) (-o - 1)).map fun k => (f k, o + k)).foldl scanStep t = t1 at *
      have e : -o - 1 + 1 = -o := by ring
      rw [e, loop_self]
      have a2 := count_far (([-o] : List ℤ).map fun k => (f k, o + k)) (by simp) t1
      generalize (([-o] : List ℤ).map fun k => (f k, o + k)).foldl scanStep t1 = t2 at *
      have a3 := seg (-o + 1) K t2 (by omega) (by omega) (fun k _ _ => by omega)
      omega
    · have a := seg (-K) K t (by omega) (by omega) (fun k h1 h2 h => hoK (by rw [abs_le]; omega))
      omega
  · rw [if_neg ho]
    exact seg (-K) K t (by omega) (by omega) (fun k h1 h2 h => ho (by rw [abs_le]; omega))

theorem eVal_nonneg (q : ℝ) (k : ℤ) : 0 ≤ eVal q k := by
  unfold eVal; split_ifs
  · exact le_rfl
  · exact mul_self_nonneg _

theorem eVal_mono {q : ℝ} (hq : 0 ≤ q) {j k : ℤ} (h : |j| ≤ |k|) : eVal q j ≤ eVal q k := by
  by_cases hj : j = 0
  · subst hj; rw [show eVal q 0 = 0 from if_pos rfl]; exact eVal_nonneg q k
  · have hj1 : 1 ≤ |j| := Int.one_le_abs hj
    have hk : k ≠ 0 := by rintro rfl; simp at h; exact hj h
    unfold eVal
    rw [if_neg hj, if_neg hk]
    have c : ((|j| - 1 : ℤ) : ℝ) ≤ ((|k| - 1 : ℤ) : ℝ) := by exact_mod_cast (by omega)
    have c0 : (0 : ℝ) ≤ ((|j| - 1 : ℤ) : ℝ) := by exact_mod_cast (by omega)
    have h1 : q * ((|j| - 1 : ℤ) : ℝ) ≤ q * ((|k| - 1 : ℤ) : ℝ) := mul_le_mul_of_nonneg_left c hq
    have h0 : 0 ≤ q * ((|j| - 1 : ℤ) : ℝ) := mul_nonneg hq c0
    exact mul_self_le_mul_self h0 h1

/-- The near values of `k` in a row are those up to some absolute value. -/
theorem exists_extent {q : ℝ} (hq : 0 ≤ q) (e1 : ℝ) {n : ℤ} (hn : 0 ≤ n) :
    ∃ K : ℤ, -1 ≤ K ∧ K ≤ n ∧ ∀ k, |k| ≤ n → (e1 + eVal q k ≤ 1 ↔ |k| ≤ K) := by
  classical
  by_cases h0 : e1 + eVal q 0 ≤ 1
  · let P : ℕ → Prop := fun k => e1 + eVal q (k : ℤ) ≤ 1
    refine ⟨(Nat.findGreatest P n.toNat : ℕ), by omega, ?_, ?_⟩
    · have := Nat.findGreatest_le (P := P) n.toNat; omega
    · intro k hk
      have ek : eVal q k = eVal q ((k.natAbs : ℕ) : ℤ) := by
        apply le_antisymm <;> apply eVal_mono hq <;> simp
      rw [ek]
      have ea : |k| = k.natAbs := Int.abs_eq_natAbs k
      constructor
      · intro h
        have := Nat.le_findGreatest (P := P) (m := k.natAbs) (n := n.toNat) (by omega) h
        omega
      · intro h
        have h1 : P (Nat.findGreatest P n.toNat) :=
          Nat.findGreatest_spec (P := P) (m := 0) (Nat.zero_le _) (by simpa [P] using h0)
        refine le_trans ?_ h1
        have := eVal_mono hq (j := ((k.natAbs : ℕ) : ℤ))
          (k := ((Nat.findGreatest P n.toNat : ℕ) : ℤ)) (by
            rw [abs_of_nonneg (by omega), abs_of_nonneg (by omega)]; omega)
        linarith
  · refine ⟨-1, le_rfl, by omega, ?_⟩
    intro k _
    constructor
    · intro h
      exfalso; apply h0
      have := eVal_mono hq (j := 0) (k := k) (by simp)
      linarith
    · intro h
      have := abs_nonneg k
      omega

theorem count_rows {α : Type} (l : List α) (g : α → List (Bool × ℤ)) (c : α → ℕ)
    (h : ∀ x ∈ l, ∀ s : Scan, ((g x).foldl scanStep s).count ≤ s.count + c x) (s : Scan) :
    ((l.flatMap g).foldl scanStep s).count ≤ s.count + (l.map c).sum := by
  induction l generalizing s with
  | nil => simp
  | cons x l ih =>
    rw [List.flatMap_cons, List.foldl_append, List.map_cons, List.sum_cons]
    have h1 := h x List.mem_cons_self s
    have h2 := ih (fun y hy => h y (List.mem_cons_of_mem _ hy)) ((g x).foldl scanStep s)
    omega

theorem sum_indicator {l : List ℤ} (hl : l.Nodup) (P : ℤ → Prop) [DecidablePred P] (a : ℕ)
    (hP : ∀ x y, P x → P y → x = y) :
    (l.map fun x => if P x then a + 1 else a).sum ≤ a * l.length + 1 := by
  induction l with
  | nil => simp
  | cons x l ih =>
    rw [List.nodup_cons] at hl
    have h := ih hl.2
    rw [List.map_cons, List.sum_cons, List.length_cons]
    by_cases hx : P x
    · have e : (l.map fun x => if P x then a + 1 else a) = l.map fun _ => a := by
        apply List.map_congr_left
        intro y hy
        rw [if_neg]
        intro hPy
        exact hl.1 (hP x y hx hPy ▸ hy)
      rw [e, if_pos hx]
      simp only [List.map_const', List.sum_replicate, smul_eq_mul]
      nlinarith
    · rw [if_neg hx]
      nlinarith

theorem length_loop (a b : ℤ) : (loop a b).length = (b - a + 1).toNat := by
  unfold loop; simp

/-- At most `(2 nCellCut + 1)^2 + 2` strips are appended. -/
theorem length_makeOffsets (d : IVec) (q : Vec) {n : ℤ} (hq : ∀ i, 0 ≤ q i) (hn : 0 ≤ n)
    (hd : ∀ i, n < d i) :
    (makeOffsets d q n).length ≤ (2 * n.toNat + 1) * (2 * n.toNat + 1) + 2 := by
  have d1 := hd 1
  have d2 := hd 2
  have key := count_rows (loop (-n) n)
    (fun i => (loop (-n) n).flatMap fun j => (loop (-n) n).map fun k =>
      (decide (eVal (q 0) i + eVal (q 1) j + eVal (q 2) k ≤ 1), i * (d 2 * d 1) + j * d 2 + k))
    (fun i => if i = 0 then (2 * n.toNat + 1) + 1 else 2 * n.toNat + 1)
    (by
      intro i hi s
      have k2 := count_rows (loop (-n) n)
        (fun j => (loop (-n) n).map fun k =>
          (decide (eVal (q 0) i + eVal (q 1) j + eVal (q 2) k ≤ 1), i * (d 2 * d 1) + j * d 2 + k))
        (fun j => if |i * (d 2 * d 1) + j * d 2| ≤ n then 2 else 1)
        (by
          intro j hj s
          obtain ⟨K, hK, hKn, hf⟩ := exists_extent (hq 2) (eVal (q 0) i + eVal (q 1) j) hn
          have e : ((loop (-n) n).map fun k =>
              (decide (eVal (q 0) i + eVal (q 1) j + eVal (q 2) k ≤ 1), i * (d 2 * d 1) + j * d 2 + k))
              = (loop (-n) n).map fun k => (decide (|k| ≤ K), (i * (d 2 * d 1) + j * d 2) + k) := by
            apply List.map_congr_left
            intro k hk
            rw [mem_loop] at hk
            have := hf k (abs_le.2 hk)
            rw [decide_eq_decide.2 this]
          rw [e]
          exact count_row _ n K (fun k => decide (|k| ≤ K)) hK hKn hn (by simp) s) s
      refine k2.trans (Nat.add_le_add_left ?_ _)
      rw [mem_loop] at hi
      by_cases hi0 : i = 0
      · rw [if_pos hi0, hi0]
        have := sum_indicator (nodup_loop (-n) n) (fun j => |0 * (d 2 * d 1) + j * d 2| ≤ n) 1
          (by
            intro x y hx hy
            have z : ∀ w : ℤ, |0 * (d 2 * d 1) + w * d 2| ≤ n → w = 0 := by
              intro w hw
              by_contra hw0
              rw [zero_mul, zero_add, abs_mul, abs_of_nonneg (by omega : 0 ≤ d 2)] at hw
              have := Int.one_le_abs hw0
              nlinarith
            rw [z x hx, z y hy])
        rw [length_loop] at this
        have e : (n - -n + 1).toNat = 2 * n.toNat + 1 := by omega
        rw [e, one_mul] at this
        exact this
      · rw [if_neg hi0]
        have e : ((loop (-n) n).map fun j => if |i * (d 2 * d 1) + j * d 2| ≤ n then 2 else 1) =
            (loop (-n) n).map fun _ => 1 := by
          apply List.map_congr_left
          intro j hj
          rw [mem_loop] at hj
          rw [if_neg]
          intro h
          have e : i * (d 2 * d 1) + j * d 2 = d 2 * (i * d 1 + j) := by ring
          rw [e, abs_mul, abs_of_nonneg (by omega : 0 ≤ d 2)] at h
          have : i * d 1 + j ≠ 0 := by
            intro h0
            rcases lt_or_gt_of_ne hi0 with h1 | h1 <;> nlinarith
          have := Int.one_le_abs this
          nlinarith
        rw [e]
        simp only [List.map_const', List.sum_replicate, smul_eq_mul, mul_one, length_loop]
        omega) ⟨[(0, 0)], (0, 0), false⟩
  have s2 := sum_indicator (nodup_loop (-n) n) (fun i => i = 0) (2 * n.toNat + 1)
    (by rintro x y rfl rfl; rfl)
  rw [length_loop, show (n - -n + 1).toNat = 2 * n.toNat + 1 by omega] at s2
  have c0 : (⟨[(0, 0)], (0, 0), false⟩ : Scan).count = 1 := rfl
  rw [c0] at key
  have : (makeOffsets d q n).length = ((visits d q n).foldl scanStep ⟨[(0, 0)], (0, 0), false⟩).count :=
    rfl
  rw [this]
  refine key.trans ?_
  omega

end Verif.DdCellList
