/-
C61: interactions saved to a restart archive are restored by loading.
-/
import Verif.Restart.Model
import Mathlib.Tactic.NormNum
import Mathlib.Tactic.Linarith

set_option autoImplicit false

namespace Verif.Restart

open Verif.Cpp Verif.Cpp.Out Verif.Boundary Verif.External

/-! ### Reading back what was written -/

@[simp] theorem getInt_put (i : ℤ) (r : List Tok) : getInt (Tok.int i :: r) = ok (i, r) := rfl

@[simp] theorem getDbl_put (x : ℝ) (r : List Tok) : getDbl (Tok.dbl x :: r) = ok (x, r) := rfl

@[simp] theorem getVec_put (v : Vec) (r : List Tok) : getVec (putVec v ++ r) = ok (v, r) := by
  have : ![v 0, v 1, v 2] = v := by
    funext i
    fin_cases i <;> rfl
  show ok (![v 0, v 1, v 2], r) = ok (v, r)
  rw [this]

@[simp] theorem getIVec_put (v : IVec) (r : List Tok) : getIVec (putIVec v ++ r) = ok (v, r) := by
  have : ![v 0, v 1, v 2] = v := by
    funext i
    fin_cases i <;> rfl
  show ok (![v 0, v 1, v 2], r) = ok (v, r)
  rw [this]

@[simp] theorem getDbl_putDbl (x : ℝ) (r : List Tok) : getDbl (putDbl x ++ r) = ok (x, r) := rfl

@[simp] theorem getCoeff_put (p : Dihedral.Coeff) (r : List Tok) :
    getCoeff (putCoeff p ++ r) = ok (p, r) := rfl

theorem getMany_put {α : Type} {get : List Tok → Out (α × List Tok)} {put : α → List Tok}
    (h : ∀ a r, get (put a ++ r) = ok (a, r)) (l : List α) (r : List Tok) :
    getMany get l.length (l.flatMap put ++ r) = ok (l, r) := by
  induction l with
  | nil => rfl
  | cons a l ih =>
    show getMany get (l.length + 1) _ = _
    unfold getMany
    rw [List.flatMap_cons, List.append_assoc, h, ok_bind]
    dsimp only
    rw [ih, ok_bind]

theorem getArr_put {α : Type} {get : List Tok → Out (α × List Tok)} {put : α → List Tok}
    (h : ∀ a r, get (put a ++ r) = ok (a, r)) (l : List α) (hl : l ≠ []) (r : List Tok) :
    getArr get l.length (putArr put l ++ r) = ok (l, r) := by
  have : 0 < l.length := List.length_pos_iff.2 hl
  unfold getArr putArr
  rw [check_true (by omega), ok_bind, List.cons_append, getInt_put, ok_bind]
  dsimp only
  rw [check_true rfl, ok_bind, Int.toNat_natCast]
  exact getMany_put h l r

theorem getTab_put (n : ℤ) (t t0 : ℤ → ℝ) (r : List Tok) :
    getTab n t0 (putTab n t ++ r) = ok (Bond.fill1 n t t0, r) := by
  have key : ∀ (m k : ℕ) (t0 : ℤ → ℝ),
      loop (fun (s : (ℤ → ℝ) × List Tok) (i : ℕ) => do
        let (x, r) ← getDbl s.2
        ok (fun k => if k = i then x else s.1 k, r)) (List.range' k m)
        (t0, (List.range' k m).map (fun (i : ℕ) => Tok.dbl (t i)) ++ r) =
      ok (fun i => if (k : ℤ) ≤ i ∧ i < k + m then t i else t0 i, r) := by
    intro m
    induction m with
    | zero =>
      intro k t0
      rw [List.range'_zero, loop_nil]
      have : (fun i => if (k : ℤ) ≤ i ∧ i < k + (0 : ℕ) then t i else t0 i) = t0 := by
        funext i
        rw [if_neg (by push_cast; omega)]
      rw [this]
      rfl
    | succ m ih =>
      intro k t0
      rw [List.range'_succ, loop_cons, List.map_cons, List.cons_append, getDbl_put, ok_bind]
      dsimp only
      rw [ok_bind, ih]
      have : (fun i => if ((k + 1 : ℕ) : ℤ) ≤ i ∧ i < (k + 1 : ℕ) + m then t i
          else if i = (k : ℤ) then t k else t0 i) =
          fun i => if (k : ℤ) ≤ i ∧ i < k + (m + 1 : ℕ) then t i else t0 i := by
        funext i
        push_cast
        by_cases h1 : i = k
        · subst h1
          rw [if_neg (by omega), if_pos rfl, if_pos (by omega)]
        · rw [if_neg h1]
          by_cases h2 : (k : ℤ) + 1 ≤ i ∧ i < k + 1 + m
          · rw [if_pos h2, if_pos (by omega)]
          · rw [if_neg h2, if_neg (by omega)]
      rw [this]
  have h := key n.toNat 0 t0
  rw [← List.range_eq_range'] at h
  unfold getTab putTab
  rw [h]
  have : (fun i => if ((0 : ℕ) : ℤ) ≤ i ∧ i < (0 : ℕ) + (n.toNat : ℕ) then t i else t0 i) =
      Bond.fill1 n t t0 := by
    funext i
    unfold Bond.fill1
    by_cases h : 0 ≤ i ∧ i < n
    · rw [if_pos h, if_pos (by omega)]
    · rw [if_neg h, if_neg (by omega)]
  rw [this]

/-- Reading rows of `c` columns. -/
theorem getRows_put (c : ℤ) (n : ℕ) (t t0 : Pair.Tab) (r : List Tok) :
    loop (fun (s : Pair.Tab × List Tok) (i : ℕ) => do
        let (x, r) ← getTab c (s.1 i) s.2
        ok (fun k => if k = i then x else s.1 k, r)) (List.range n)
      (t0, (List.range n).flatMap (fun (i : ℕ) => putTab c (t i)) ++ r) =
    ok (fun (i j : ℤ) => if (0 ≤ i ∧ i < (n : ℤ)) ∧ 0 ≤ j ∧ j < c then t i j else t0 i j, r) := by
  have key : ∀ (m k : ℕ) (t0 : Pair.Tab),
      loop (fun (s : Pair.Tab × List Tok) (i : ℕ) => do
        let (x, r) ← getTab c (s.1 i) s.2
        ok (fun k => if k = i then x else s.1 k, r)) (List.range' k m)
        (t0, (List.range' k m).flatMap (fun (i : ℕ) => putTab c (t i)) ++ r) =
      ok (fun i j => if ((k : ℤ) ≤ i ∧ i < k + m) ∧ 0 ≤ j ∧ j < c then t i j else t0 i j, r) := by
    intro m
    induction m with
    | zero =>
      intro k t0
      rw [List.range'_zero, loop_nil]
      have : (fun i j => if ((k : ℤ) ≤ i ∧ i < k + (0 : ℕ)) ∧ 0 ≤ j ∧ j < c then t i j else t0 i j) =
          t0 := by
        funext i j
        rw [if_neg (by push_cast; omega)]
      rw [this]
      rfl
    | succ m ih =>
      intro k t0
      rw [List.range'_succ, loop_cons, List.flatMap_cons, List.append_assoc, getTab_put, ok_bind]
      dsimp only
      rw [ok_bind, ih]
      have : (fun i j => if (((k + 1 : ℕ) : ℤ) ≤ i ∧ i < (k + 1 : ℕ) + m) ∧ 0 ≤ j ∧ j < c then t i j
          else (if i = (k : ℤ) then Bond.fill1 c (t k) (t0 k) else t0 i) j) =
          fun i j => if ((k : ℤ) ≤ i ∧ i < k + (m + 1 : ℕ)) ∧ 0 ≤ j ∧ j < c then t i j else t0 i j := by
        funext i j
        push_cast
        by_cases h1 : i = k
        · subst h1
          rw [if_neg (by omega), if_pos rfl]
          unfold Bond.fill1
          by_cases hj : 0 ≤ j ∧ j < c
          · rw [if_pos hj, if_pos (by omega)]
          · rw [if_neg hj, if_neg (by omega)]
        · rw [if_neg h1]
          by_cases h2 : ((k : ℤ) + 1 ≤ i ∧ i < k + 1 + m) ∧ 0 ≤ j ∧ j < c
          · rw [if_pos h2, if_pos (by omega)]
          · rw [if_neg h2, if_neg (by omega)]
      rw [this]
  have h := key n 0 t0
  rw [← List.range_eq_range'] at h
  rw [h]
  have : (fun i j => if (((0 : ℕ) : ℤ) ≤ i ∧ i < (0 : ℕ) + n) ∧ 0 ≤ j ∧ j < c then t i j else t0 i j) =
      fun i j => if (0 ≤ i ∧ i < (n : ℤ)) ∧ 0 ≤ j ∧ j < c then t i j else t0 i j := by
    funext i j
    push_cast
    simp only [zero_add]
  rw [this]

theorem getTab2_put (n : ℤ) (t t0 : Pair.Tab) (r : List Tok) :
    getTab2 n t0 (putTab2 n t ++ r) = ok (Pair.fill n t t0, r) := by
  unfold getTab2 putTab2
  rw [getRows_put]
  have : (fun i j => if (0 ≤ i ∧ i < (n.toNat : ℤ)) ∧ 0 ≤ j ∧ j < n then t i j else t0 i j) =
      Pair.fill n t t0 := by
    funext i j
    unfold Pair.fill
    by_cases h : Pair.In n i j
    · rw [if_pos h, if_pos (by unfold Pair.In at h; omega)]
    · rw [if_neg h, if_neg (by unfold Pair.In at h; omega)]
  rw [this]

/-! ### Pair interactions -/

/-- Agreement of tables for the types of atoms. -/
def Agree2 (n : ℤ) (t u : Pair.Tab) : Prop := ∀ i j, 0 ≤ i → i < n → 0 ≤ j → j < n → t i j = u i j

def Agree (n : ℤ) (t u : ℤ → ℝ) : Prop := ∀ i, 0 ≤ i → i < n → t i = u i

theorem agree2_fill (n : ℤ) (t u : Pair.Tab) : Agree2 n (Pair.fill n t u) t :=
  fun _ _ h1 h2 h3 h4 => if_pos ⟨h1, h2, h3, h4⟩

theorem agree_fill (n : ℤ) (t u : ℤ → ℝ) : Agree n (Bond.fill1 n t u) t :=
  fun _ h1 h2 => if_pos ⟨h1, h2⟩

/-- **C61**: loading a saved `LJPair` or `WcaPair` into any object with the same number of types
restores all parameters and derived values of these types, and reads exactly what was written. -/
theorem C61_LJPair (s s0 : Pair.LJ) (hn : 0 < s.n) (h0 : s0.n = s.n) (r : List Tok) :
    ∃ t, loadLJ s0 (saveLJ s ++ r) = ok (t, r) ∧ t.n = s.n ∧ t.maxCut = s.maxCut ∧ t.init = true ∧
      Agree2 s.n t.epsilon s.epsilon ∧ Agree2 s.n t.sigma s.sigma ∧ Agree2 s.n t.cutoff s.cutoff ∧
      Agree2 s.n t.sigmaSq s.sigmaSq ∧ Agree2 s.n t.cutoffSq s.cutoffSq ∧
      Agree2 s.n t.ljShift s.ljShift ∧ Agree2 s.n t.eps48 s.eps48 := by
  unfold loadLJ saveLJ
  rw [h0, check_true hn, ok_bind]
  simp only [List.append_assoc, getTab2_put, ok_bind, List.cons_append, List.nil_append, getDbl_put]
  exact ⟨_, rfl, rfl, rfl, rfl, agree2_fill _ _ _, agree2_fill _ _ _, agree2_fill _ _ _,
    agree2_fill _ _ _, agree2_fill _ _ _, agree2_fill _ _ _, agree2_fill _ _ _⟩

/-- **C61**: the same for `DpdPair`. -/
theorem C61_DpdPair (s s0 : Pair.Dpd) (hn : 0 < s.n) (h0 : s0.n = s.n) (r : List Tok) :
    ∃ t, loadDpd s0 (saveDpd s ++ r) = ok (t, r) ∧ t.n = s.n ∧ t.maxCut = s.maxCut ∧ t.init = true ∧
      Agree2 s.n t.epsilon s.epsilon ∧ Agree2 s.n t.sigma s.sigma ∧
      Agree2 s.n t.sigmaSq s.sigmaSq ∧ Agree2 s.n t.cf s.cf ∧ Agree2 s.n t.ce s.ce := by
  unfold loadDpd saveDpd
  rw [h0, check_true hn, ok_bind]
  simp only [List.append_assoc, getTab2_put, ok_bind, List.cons_append, List.nil_append, getDbl_put]
  exact ⟨_, rfl, rfl, rfl, rfl, agree2_fill _ _ _, agree2_fill _ _ _, agree2_fill _ _ _,
    agree2_fill _ _ _, agree2_fill _ _ _⟩

/-! ### Bonds, angles and dihedrals -/

/-- **C61**: bond interactions are restored for all types of bonds. -/
theorem C61_bonds (r : List Tok) :
    (∀ s s0 : Bond.Harm, 0 < s.n → s0.n = s.n → ∃ l t, saveHarm s = ok l ∧
      loadHarm s0 (l ++ r) = ok (t, r) ∧ t.n = s.n ∧ Agree s.n t.kappa s.kappa ∧
      Agree s.n t.length s.length) ∧
    (∀ s s0 : Bond.Harm0, 0 < s.n → s0.n = s.n → ∃ l t, saveHarm0 s = ok l ∧
      loadHarm0 s0 (l ++ r) = ok (t, r) ∧ t.n = s.n ∧ Agree s.n t.kappa s.kappa) ∧
    ∀ s s0 : Bond.Fene, 0 < s.n → s0.n = s.n → ∃ l t, saveFene s = ok l ∧
      loadFene s0 (l ++ r) = ok (t, r) ∧ t.n = s.n ∧ t.forceCutoff = s.forceCutoff ∧
      Agree s.n t.kappa s.kappa ∧ Agree s.n t.r0 s.r0 ∧ Agree s.n t.r0Sq s.r0Sq ∧
      Agree s.n t.r0SqInv s.r0SqInv ∧ Agree s.n t.ce s.ce ∧ Agree s.n t.rl s.rl ∧
      Agree s.n t.rlSq s.rlSq ∧ Agree s.n t.energyCutoff s.energyCutoff := by
  refine ⟨fun s s0 hn h0 => ?_, fun s s0 hn h0 => ?_, fun s s0 hn h0 => ?_⟩
  · unfold loadHarm saveHarm
    rw [h0]
    refine ⟨_, exists_and_left.2 ⟨by rw [check_true hn, ok_bind], ?_⟩⟩
    simp only [check_true hn, List.append_assoc, getTab_put, ok_bind]
    exact ⟨_, rfl, rfl, agree_fill _ _ _, agree_fill _ _ _⟩
  · unfold loadHarm0 saveHarm0
    rw [h0]
    refine ⟨_, exists_and_left.2 ⟨by rw [check_true hn, ok_bind], ?_⟩⟩
    simp only [check_true hn, getTab_put, ok_bind]
    exact ⟨_, rfl, rfl, agree_fill _ _ _⟩
  · unfold loadFene saveFene
    rw [h0]
    refine ⟨_, exists_and_left.2 ⟨by rw [check_true hn, ok_bind], ?_⟩⟩
    simp only [check_true hn, List.append_assoc, getTab_put, ok_bind, List.cons_append, List.nil_append,
      getDbl_put]
    exact ⟨_, rfl, rfl, rfl, agree_fill _ _ _, agree_fill _ _ _, agree_fill _ _ _,
        agree_fill _ _ _, agree_fill _ _ _, agree_fill _ _ _, agree_fill _ _ _, agree_fill _ _ _⟩

/-- **C61**: angle and dihedral interactions are restored for all their types. -/
theorem C61_angles (r : List Tok) :
    (∀ s s0 : Angle.CosSq, 0 < s.n → s0.n = s.n → ∃ l t, saveCosSq s = ok l ∧
      loadCosSq s0 (l ++ r) = ok (t, r) ∧ t.n = s.n ∧ Agree s.n t.kappa s.kappa ∧
      Agree s.n t.theta0 s.theta0 ∧ Agree s.n t.cosTheta0 s.cosTheta0) ∧
    (∀ s s0 : Angle.Harmonic, 0 < s.n → s0.n = s.n → ∃ l t, saveHarmAngle s = ok l ∧
      loadHarmAngle s0 (l ++ r) = ok (t, r) ∧ t.n = s.n ∧ Agree s.n t.kappa s.kappa ∧
      Agree s.n t.theta0 s.theta0) ∧
    ∀ s s0 : Dihedral.Fourier, 0 < s.n → s0.n = s.n → ∃ t,
      loadFourier s0 (saveFourier s ++ r) = ok (t, r) ∧ t.n = s.n ∧
      ∀ i, 0 ≤ i → i < s.n → t.coeffs i = s.coeffs i := by
  refine ⟨fun s s0 hn h0 => ?_, fun s s0 hn h0 => ?_, fun s s0 hn h0 => ?_⟩
  · unfold loadCosSq saveCosSq
    rw [h0]
    refine ⟨_, exists_and_left.2 ⟨by rw [check_true hn, ok_bind], ?_⟩⟩
    simp only [check_true hn, List.append_assoc, getTab_put, ok_bind]
    exact ⟨_, rfl, rfl, agree_fill _ _ _, agree_fill _ _ _, agree_fill _ _ _⟩
  · unfold loadHarmAngle saveHarmAngle
    rw [h0]
    refine ⟨_, exists_and_left.2 ⟨by rw [check_true hn, ok_bind], ?_⟩⟩
    simp only [check_true hn, List.append_assoc, getTab_put, ok_bind]
    exact ⟨_, rfl, rfl, agree_fill _ _ _, agree_fill _ _ _⟩
  · have hlen : ((List.range s.n.toNat).map fun (i : ℕ) => s.coeffs i).length = s.n.toNat := by simp
    have hg := getArr_put getCoeff_put ((List.range s.n.toNat).map fun (i : ℕ) => s.coeffs i)
      (by rw [← List.length_pos_iff, hlen]; omega) r
    rw [hlen, Int.toNat_of_nonneg hn.le] at hg
    unfold loadFourier saveFourier
    rw [List.cons_append, getInt_put, ok_bind]
    dsimp only
    rw [check_true hn, ok_bind, check_true h0.symm, ok_bind, hg, ok_bind]
    refine ⟨_, rfl, rfl, fun i h1 h2 => ?_⟩
    dsimp only
    rw [if_pos ⟨h1, h2⟩, List.getD_eq_getElem?_getD,
      List.getElem?_eq_getElem (by rw [hlen]; omega), Option.getD_some]
    simp [Int.toNat_of_nonneg h1]

/-! ### External fields -/

theorem prefactors_length (n : ℤ) (p : ℤ → ℝ) : (prefactors n p).length = n.toNat := by
  simp [prefactors]

theorem prefactors_put {n : ℤ} (hn : 0 < n) (p : ℤ → ℝ) (r : List Tok) :
    getArr getDbl n (putArr putDbl (prefactors n p) ++ r) = ok (prefactors n p, r) := by
  have := getArr_put getDbl_putDbl (prefactors n p)
    (by rw [← List.length_pos_iff, prefactors_length]; omega) r
  rwa [prefactors_length, Int.toNat_of_nonneg hn.le] at this

theorem prefactors_agree (n : ℤ) (p : ℤ → ℝ) : Agree n (ofList (prefactors n p)) p := by
  intro i h1 h2
  unfold ofList
  rw [List.getD_eq_getElem?_getD, List.getElem?_eq_getElem (by rw [prefactors_length]; omega),
    Option.getD_some]
  simp [prefactors, Int.toNat_of_nonneg h1]

/-- **C61** (partial): slits, boxes with some confining directions, lamellar fields, periodic
fields with at least one wave and tabulated fields are restored. Missing: the other four
classes of external fields, for which loading fails, see `C61_external_violated`. -/
theorem C61_external_partial (n : ℤ) (hn : 0 < n) (r : List Tok) :
    (∀ s : Wall, loadSlit n (saveSlit s ++ r) = ok ({ s with initialized := true }, r)) ∧
    (∀ (s : Wall) (i : ℤ), 0 ≤ i → i ≤ 3 →
      loadOrthoBox (saveOrthoBox n (s, i) ++ r) = ok (({ s with initialized := true }, i), r)) ∧
    (∀ s : Lamellar, ∃ t : Lamellar, loadLamellar n (saveLamellar n s ++ r) = ok (t, r) ∧
      { t with prefactor := s.prefactor } = s ∧ Agree n t.prefactor s.prefactor) ∧
    (∀ s : Periodic, s.waves ≠ [] → ∃ t : Periodic,
      loadPeriodic n (savePeriodic n s ++ r) = ok (t, r) ∧
      { t with prefactor := s.prefactor } = s ∧ Agree n t.prefactor s.prefactor) ∧
    ∀ (rMax : ℝ) (nr : ℤ) (table : ℤ → ℤ → ℝ), 0 < nr → ∃ t : Tabulated,
      loadTabulated (saveTabulated n (Tabulated.read rMax nr table) ++ r) = ok (t, r) ∧
      { t with potentials := (Tabulated.read rMax nr table).potentials } =
        Tabulated.read rMax nr table ∧
      ∀ i j, 0 ≤ i → i < n → 0 ≤ j → j < nr →
        t.potentials i j = (Tabulated.read rMax nr table).potentials i j := by
  refine ⟨fun s => ?_, fun s i h1 h2 => ?_, fun s => ?_, fun s hs => ?_, fun rMax nr table hr => ?_⟩
  · unfold loadSlit saveSlit loadWall
    rw [check_true hn.ne', ok_bind]
    rfl
  · unfold loadOrthoBox saveOrthoBox loadWall
    simp only [List.cons_append, List.nil_append, getInt_put, ok_bind, getDbl_put]
    rw [check_true hn, ok_bind, check_true ⟨h1, h2⟩, ok_bind]
  · unfold loadLamellar saveLamellar
    rw [check_true hn, ok_bind]
    simp only [List.append_assoc, List.cons_append, List.nil_append, getInt_put, ok_bind]
    have hd : (s.perpDirection : ℕ) < 3 := s.perpDirection.2
    rw [check_true (by omega), ok_bind, prefactors_put hn, ok_bind]
    simp only [getDbl_put, ok_bind, getInt_put]
    refine ⟨_, rfl, ?_, prefactors_agree _ _⟩
    cases s with
    | mk d p e w q =>
      dsimp only
      congr 1
      fin_cases d <;> simp
  · have hl : (s.waves.map Prod.fst) ≠ [] := by simpa using hs
    have hl' : (s.waves.map Prod.snd) ≠ [] := by simpa using hs
    have e1 := fun r => getArr_put getVec_put _ hl r
    have e2 := fun r => getArr_put getDbl_putDbl _ hl' r
    rw [List.length_map] at e1 e2
    unfold loadPeriodic savePeriodic
    rw [check_true hn, ok_bind]
    simp only [List.append_assoc, prefactors_put hn, ok_bind, List.cons_append, List.nil_append,
      getInt_put, getDbl_put, e1, e2, getVec_put]
    refine ⟨_, rfl, ?_, prefactors_agree _ _⟩
    have hz : (s.waves.map Prod.fst).zip (s.waves.map Prod.snd) = s.waves := by
      rw [List.zip_map']
      simp
    simp only [hz]
  · unfold loadTabulated saveTabulated
    simp only [List.cons_append, List.nil_append, getInt_put, getDbl_put, ok_bind]
    rw [check_true hn, ok_bind, check_true (show (Tabulated.read rMax nr table).nr > 0 from hr),
      ok_bind, getRows_put, ok_bind]
    refine ⟨_, rfl, rfl, fun i j h1 h2 h3 h4 => ?_⟩
    dsimp only
    have h5 : (Tabulated.read rMax nr table).nr = nr := rfl
    rw [if_pos (by rw [h5]; omega)]

/-- Loading into a new object fails: for boxes the number of types of atoms is read but was not
written; for simple, general and nucleation fields the number of waves is neither written nor
read, so arrays of zero elements are allocated. -/
theorem C61_external_violated (n : ℤ) (hn : 0 < n) (r : List Tok) :
    (∀ s : Wall, loadBox (saveBox s ++ r) = .throw) ∧
    (∀ s : Simple, loadSimple n 0 (saveSimple n s ++ r) = .throw) ∧
    (∀ l rest, loadGeneral 0 (saveGeneral n l rest ++ r) = .throw) ∧
    ∀ s : Nucleation, loadNucleation 0 (saveNucleation n s ++ r) = .throw := by
  refine ⟨fun s => rfl, fun s => ?_, fun l rest => ?_, fun s => ?_⟩
  · unfold loadSimple saveSimple
    rw [check_true hn, ok_bind]
    simp only [List.append_assoc, prefactors_put hn, ok_bind, List.cons_append, List.nil_append,
      getDbl_put]
    unfold getArr
    rw [check_false (by omega)]
    rfl
  · unfold loadGeneral saveGeneral
    simp only [List.append_assoc, List.cons_append, List.nil_append, getInt_put, ok_bind]
    rw [check_true hn, ok_bind, mul_zero]
    unfold getArr
    rw [check_false (by omega)]
    rfl
  · unfold loadNucleation saveNucleation
    simp only [List.append_assoc, List.cons_append, List.nil_append, getInt_put, ok_bind]
    rw [check_true hn, ok_bind]
    simp only [prefactors_put hn, ok_bind, getDbl_put]
    unfold getArr
    rw [check_false (by omega)]
    rfl

/-- The energies of a restored `LJPair` are those of the saved object. -/
theorem C61_LJPair_energy (s s0 : Pair.LJ) (hn : 0 < s.n) (h0 : s0.n = s.n) (r : List Tok) :
    ∃ t, loadLJ s0 (saveLJ s ++ r) = ok (t, r) ∧ ∀ i j, 0 ≤ i → i < s.n → 0 ≤ j → j < s.n →
      ∀ rsq, t.energy rsq i j = s.energy rsq i j ∧ t.forceOverR rsq i j = s.forceOverR rsq i j := by
  obtain ⟨t, h, -, -, -, h1, h2, h3, h4, h5, h6, h7⟩ := C61_LJPair s s0 hn h0 r
  refine ⟨t, h, fun i j hi hi' hj hj' rsq => ?_⟩
  unfold Pair.LJ.energy Pair.LJ.forceOverR
  rw [h1 i j hi hi' hj hj', h4 i j hi hi' hj hj', h5 i j hi hi' hj hj', h6 i j hi hi' hj hj',
    h7 i j hi hi' hj hj']
  exact ⟨rfl, rfl⟩

/-! ### Examples -/

/-- A saved Lennard-Jones interaction of two types and a new object. -/
example : ∃ s s0 : Pair.LJ, 0 < s.n ∧ s0.n = s.n ∧ s.epsilon 1 1 ≠ s0.epsilon 1 1 :=
  ⟨⟨fun _ _ => 1, fun _ _ => 1, fun _ _ => 1, fun _ _ => 1, fun _ _ => 1, fun _ _ => 0,
      fun _ _ => 48, 1, 2, true⟩,
    ⟨fun _ _ => 0, fun _ _ => 0, fun _ _ => 0, fun _ _ => 0, fun _ _ => 0, fun _ _ => 0,
      fun _ _ => 0, 0, 2, false⟩, by norm_num, rfl, by norm_num⟩

/-- A periodic field with two waves. -/
noncomputable def twoWaves : Periodic :=
  { prefactor := fun i => i, externalParameter := 1, C := 0
    waves := [(![1, 0, 0], 0), (![0, 2, 0], 1)], shift := fun _ => 0, interfaceWidth := 1
    periodicity := 1 }

example : ∃ t : Periodic, loadPeriodic 2 (savePeriodic 2 twoWaves ++ []) = ok (t, []) ∧
    t.waves = twoWaves.waves ∧ t.prefactor 1 = 1 := by
  obtain ⟨t, h1, h2, h3⟩ := (C61_external_partial 2 (by norm_num) []).2.2.2.1 twoWaves (by
    simp [twoWaves])
  refine ⟨t, h1, ?_, ?_⟩
  · rw [← h2]
  · rw [h3 1 (by norm_num) (by norm_num)]
    simp [twoWaves]

end Verif.Restart
