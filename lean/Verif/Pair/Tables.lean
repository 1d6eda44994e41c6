import Verif.Pair.Model
import Mathlib.Tactic.Ring
import Mathlib.Tactic.Linarith

/-! # Histories of parameter changes and the invariant of the tables -/

set_option autoImplicit false

namespace Verif.Pair

theorem In.symm {n i j : ℤ} (h : In n i j) : In n j i := ⟨h.2.2.1, h.2.2.2, h.1, h.2.1⟩

theorem upd_same (t : Tab) (i j : ℤ) (x : ℝ) : upd t i j x i j = x := by simp [upd]

theorem upd_ne {t : Tab} {i j k l : ℤ} {x : ℝ} (h : ¬ (k = i ∧ l = j)) : upd t i j x k l = t k l := by
  simp [upd, h]

theorem fill_in {n i j : ℤ} (h : In n i j) (a t : Tab) : fill n a t i j = a i j := by simp [fill, h]

/-- Symmetric in the used part. -/
def Sym (n : ℤ) (t : Tab) : Prop := ∀ i j, In n i j → t i j = t j i

/-! ### The maximum -/

theorem mem_pairsOf {n i j : ℤ} : (i, j) ∈ pairsOf n ↔ In n i j := by
  unfold pairsOf In
  simp only [List.mem_flatMap, List.mem_range, List.mem_map, Prod.mk.injEq]
  constructor
  · rintro ⟨a, ha, b, hb, rfl, rfl⟩
    omega
  · rintro ⟨h1, h2, h3, h4⟩
    exact ⟨i.toNat, by omega, j.toNat, by omega, by omega, by omega⟩

theorem foldl_max (l : List (ℤ × ℤ)) (t : Tab) (m : ℝ) :
    m ≤ l.foldl (fun m p => if t p.1 p.2 > m then t p.1 p.2 else m) m ∧
    ∀ p ∈ l, t p.1 p.2 ≤ l.foldl (fun m p => if t p.1 p.2 > m then t p.1 p.2 else m) m := by
  induction l generalizing m with
  | nil => simp
  | cons q l ih =>
    simp only [List.foldl_cons, List.mem_cons, forall_eq_or_imp]
    obtain ⟨h1, h2⟩ := ih (if t q.1 q.2 > m then t q.1 q.2 else m)
    refine ⟨le_trans ?_ h1, le_trans ?_ h1, h2⟩
    · split_ifs with h
      · exact h.le
      · exact le_rfl
    · split_ifs with h
      · exact le_rfl
      · exact not_lt.1 h

theorem foldl_max_mem (l : List (ℤ × ℤ)) (t : Tab) (m : ℝ) :
    l.foldl (fun m p => if t p.1 p.2 > m then t p.1 p.2 else m) m = m ∨
    ∃ p ∈ l, l.foldl (fun m p => if t p.1 p.2 > m then t p.1 p.2 else m) m = t p.1 p.2 := by
  induction l generalizing m with
  | nil => simp
  | cons q l ih =>
    simp only [List.foldl_cons]
    rcases ih (if t q.1 q.2 > m then t q.1 q.2 else m) with h | ⟨p, hp, h⟩
    · by_cases hq : t q.1 q.2 > m
      · right; exact ⟨q, by simp, by rw [h, if_pos hq]⟩
      · left; rw [h, if_neg hq]
    · right; exact ⟨p, by simp [hp], h⟩

theorem maxOver_ge {n : ℤ} (t : Tab) {i j : ℤ} (h : In n i j) : t i j ≤ maxOver n t :=
  (foldl_max _ t 0).2 (i, j) (mem_pairsOf.2 h)

theorem maxOver_nonneg (n : ℤ) (t : Tab) : 0 ≤ maxOver n t := (foldl_max _ t 0).1

/-! ### Lennard-Jones -/

/-- Histories of an `LJPair`: the number of types is set, symmetric parameters are read, then any
sequence of calls that return normally. If `p` is false, the range is modified and `set` is
used only for equal types. -/
inductive LJ.Used (p : Prop) : LJ → Prop
  | read {s s' t : LJ} {n : ℤ} {eps sig cut : Tab} (h1 : s.setNAtomType n = .ok s')
      (hs : Sym n eps ∧ Sym n sig ∧ Sym n cut) (h2 : s'.read eps sig cut = .ok t) : Used p t
  | reread {s t : LJ} {eps sig cut : Tab} (h : Used p s)
      (hs : Sym s.n eps ∧ Sym s.n sig ∧ Sym s.n cut) (h2 : s.read eps sig cut = .ok t) : Used p t
  | setEpsilon {s t : LJ} {i j : ℤ} {x : ℝ} (h : Used p s) (h2 : s.setEpsilon i j x = .ok t) : Used p t
  | setSigma {s t : LJ} {i j : ℤ} {x : ℝ} (h : Used p s) (hp : i = j ∨ p)
      (h2 : s.setSigma i j x = .ok t) : Used p t
  | set {s t : LJ} {name : String} {i j : ℤ} {x : ℝ} (h : Used p s) (hp : i = j ∨ p)
      (h2 : s.set name i j x = .ok t) : Used p t
  | assign {s : LJ} (old : LJ) (h : Used p s) : Used p (old.assign s)

/-- Invariant of the tables, apart from the shift. -/
structure LJ.OK (s : LJ) : Prop where
  n : 0 < s.n ∧ s.n ≤ maxType
  init : s.init = true
  symE : Sym s.n s.epsilon
  symS : Sym s.n s.sigma
  symC : Sym s.n s.cutoff
  sq : ∀ i j, In s.n i j → s.sigmaSq i j = s.sigma i j * s.sigma i j
  cutSq : ∀ i j, In s.n i j → s.cutoffSq i j = s.cutoff i j * s.cutoff i j
  e48 : ∀ i j, In s.n i j → s.eps48 i j = 48 * s.epsilon i j
  max : ∀ i j, In s.n i j → s.cutoff i j ≤ s.maxCut
  maxIs : s.maxCut = maxOver s.n s.cutoff

/-- The shift is as it should be. -/
def LJ.ShiftOK (s : LJ) : Prop :=
  ∀ i j, In s.n i j → s.ljShift i j = shiftOf (s.epsilon i j) (s.sigmaSq i j) (s.cutoffSq i j)

theorem maxOver_congr {n : ℤ} {t u : Tab} (h : ∀ i j, In n i j → t i j = u i j) :
    maxOver n t = maxOver n u := by
  unfold maxOver
  have : ∀ (l : List (ℤ × ℤ)) (m : ℝ), (∀ p ∈ l, t p.1 p.2 = u p.1 p.2) →
      l.foldl (fun m p => if t p.1 p.2 > m then t p.1 p.2 else m) m =
      l.foldl (fun m p => if u p.1 p.2 > m then u p.1 p.2 else m) m := by
    intro l
    induction l with
    | nil => intro m _; rfl
    | cons q l ih =>
      intro m hq
      simp only [List.foldl_cons]
      rw [hq q (by simp), ih _ fun p hp => hq p (by simp [hp])]
  exact this _ _ fun p hp => h _ _ (mem_pairsOf.1 hp)

theorem guard_ok {b : Bool} {n i j : ℤ} {u : Unit} (h : guard b n i j = .ok u) : In n i j := by
  unfold guard at h
  split_ifs at h
  unfold In; omega

theorem LJ.read_ok {s t : LJ} {eps sig cut : Tab} (hn : s.n ≤ maxType)
    (hs : Sym s.n eps ∧ Sym s.n sig ∧ Sym s.n cut) (h : s.read eps sig cut = .ok t) :
    t.OK ∧ t.ShiftOK := by
  unfold LJ.read at h
  split_ifs at h with h0
  simp only [Except.ok.injEq] at h
  subst h
  have hsym : ∀ (a u : Tab), Sym s.n a → Sym s.n (fill s.n a u) := by
    intro a u ha i j hij
    rw [fill_in hij, fill_in hij.symm]; exact ha i j hij
  refine ⟨⟨⟨not_le.1 h0, hn⟩, rfl, hsym _ _ hs.1, hsym _ _ hs.2.1, hsym _ _ hs.2.2, ?_, ?_, ?_, ?_, rfl⟩, ?_⟩
  · intro i j hij; simp only [fill_in hij]
  · intro i j hij; simp only [fill_in hij]
  · intro i j hij; simp only [fill_in hij]
  · intro i j hij; exact maxOver_ge _ hij
  · intro i j hij; simp only [fill_in hij]

/-- Changing entries `(i,j)` and `(j,i)` of a symmetric table to one value. -/
theorem sym_upd {n : ℤ} {t : Tab} (h : Sym n t) (i j : ℤ) (x : ℝ) : Sym n (upd (upd t i j x) j i x) := by
  intro k l hkl
  by_cases h1 : k = j ∧ l = i
  · rw [h1.1, h1.2, upd_same]
    by_cases h2 : i = j
    · subst h2; rw [upd_same]
    · rw [upd_ne (by tauto), upd_same]
  · rw [upd_ne h1]
    by_cases h2 : k = i ∧ l = j
    · rw [h2.1, h2.2, upd_same, upd_same]
    · rw [upd_ne h2, upd_ne (by tauto), upd_ne (by tauto)]
      exact h k l hkl

theorem upd_twice (t : Tab) (i : ℤ) (x y : ℝ) : upd (upd t i i y) i i x = upd t i i x := by
  funext k l; unfold upd; split_ifs <;> rfl

/-- Result of an update of `(i,j)` followed by one of `(j,i)` if `j ≠ i`. -/
theorem upd_sym_apply (t : Tab) (i j : ℤ) (x : ℝ) (k l : ℤ) :
    upd (upd t i j x) j i x k l = if (k = i ∧ l = j) ∨ (k = j ∧ l = i) then x else t k l := by
  unfold upd; split_ifs <;> tauto

theorem upd_apply (t : Tab) (i j : ℤ) (x : ℝ) (k l : ℤ) :
    upd t i j x k l = if k = i ∧ l = j then x else t k l := rfl

theorem upd_self (t : Tab) (i j : ℤ) : upd t i j (t i j) = t := by
  funext k l; unfold upd; split_ifs with h
  · rw [h.1, h.2]
  · rfl

/-- A symmetric write, as done by the setters. -/
noncomputable def put (t : Tab) (i j : ℤ) (x : ℝ) : Tab := upd (upd t i j x) j i x

theorem put_apply (t : Tab) (i j : ℤ) (x : ℝ) (k l : ℤ) :
    put t i j x k l = if (k = i ∧ l = j) ∨ (k = j ∧ l = i) then x else t k l := upd_sym_apply t i j x k l

/-- Closed form of `setEpsilon`. -/
theorem LJ.setEpsilon_eq {s t : LJ} {i j : ℤ} {x : ℝ} (h : s.setEpsilon i j x = .ok t) :
    In s.n i j ∧ t = { s with epsilon := put s.epsilon i j x, eps48 := put s.eps48 i j (48 * x)
                              ljShift := put s.ljShift i j (shiftOf x (s.sigmaSq i j) (s.cutoffSq i j)) } := by
  unfold LJ.setEpsilon at h
  cases hg : guard s.init s.n i j with
  | error e => rw [hg] at h; cases h
  | ok u =>
    rw [hg] at h
    refine ⟨guard_ok hg, ?_⟩
    simp only [Except.bind, upd_same, Except.ok.injEq] at h
    rw [← h]
    by_cases hij : j = i
    · subst hij
      simp only [ne_eq, not_true, if_false, put, upd_twice]
    · simp only [ne_eq, hij, not_false_eq_true, if_true, put]

/-- Closed form of `setSigma`. -/
theorem LJ.setSigma_eq {s t : LJ} {i j : ℤ} {x : ℝ} (h : s.setSigma i j x = .ok t) :
    In s.n i j ∧ t = { s with sigma := put s.sigma i j x, sigmaSq := put s.sigmaSq i j (x * x)
                              ljShift := upd s.ljShift i j (shiftOf (s.epsilon i j) (x * x) (s.cutoffSq i j)) } := by
  unfold LJ.setSigma at h
  cases hg : guard s.init s.n i j with
  | error e => rw [hg] at h; cases h
  | ok u =>
    rw [hg] at h
    refine ⟨guard_ok hg, ?_⟩
    simp only [Except.bind, upd_same, Except.ok.injEq] at h
    rw [← h]
    by_cases hij : j = i
    · subst hij
      simp only [ne_eq, not_true, if_false, put, upd_twice]
    · simp only [ne_eq, hij, not_false_eq_true, if_true, put, upd_self]

theorem LJ.putEpsilon_eq (s : LJ) (i j : ℤ) (x : ℝ) : s.putEpsilon i j x =
    { s with epsilon := put s.epsilon i j x, eps48 := put s.eps48 i j (48 * x) } := by
  unfold LJ.putEpsilon
  by_cases hij : j = i
  · subst hij
    simp only [ne_eq, not_true, if_false, put, upd_twice]
  · simp only [ne_eq, hij, not_false_eq_true, if_true, put, upd_same]

theorem LJ.putSigma_eq (s : LJ) (i j : ℤ) (x : ℝ) : s.putSigma i j x =
    { s with sigma := put s.sigma i j x, sigmaSq := put s.sigmaSq i j (x * x) } := by
  unfold LJ.putSigma
  by_cases hij : j = i
  · subst hij
    simp only [ne_eq, not_true, if_false, put, upd_twice]
  · simp only [ne_eq, hij, not_false_eq_true, if_true, put, upd_same]

theorem LJ.reshift_eq (s : LJ) (i j : ℤ) : s.reshift i j =
    { s with ljShift := upd s.ljShift i j (shiftOf (s.epsilon i j) (s.sigmaSq i j) (s.cutoffSq i j)) } := by
  unfold LJ.reshift
  by_cases hij : j = i
  · simp only [hij, ne_eq, not_true, if_false]
  · simp only [ne_eq, hij, not_false_eq_true, if_true, upd_self]

theorem put_same (t : Tab) (i j : ℤ) (x : ℝ) : put t i j x i j = x := by simp [put_apply]

theorem sym_put {n : ℤ} {t : Tab} (h : Sym n t) (i j : ℤ) (x : ℝ) : Sym n (put t i j x) := sym_upd h i j x

/-- Closed form of `set`. -/
theorem LJ.set_eq {s t : LJ} {name : String} {i j : ℤ} {x : ℝ} (h : s.set name i j x = .ok t) :
    (name = "epsilon" ∧ t = { s with epsilon := put s.epsilon i j x, eps48 := put s.eps48 i j (48 * x), ljShift := upd s.ljShift i j (shiftOf x (s.sigmaSq i j) (s.cutoffSq i j)) }) ∨
    (name = "sigma" ∧ t = { s with sigma := put s.sigma i j x, sigmaSq := put s.sigmaSq i j (x * x), ljShift := upd s.ljShift i j (shiftOf (s.epsilon i j) (x * x) (s.cutoffSq i j)) }) := by
  unfold LJ.set at h
  split_ifs at h with h1 h2 h3 h4
  · left
    rw [LJ.reshift_eq, LJ.putEpsilon_eq] at h
    simp only [Except.ok.injEq, put_same] at h
    exact ⟨h1, h.symm⟩
  · right
    rw [LJ.reshift_eq, LJ.putSigma_eq] at h
    simp only [Except.ok.injEq, put_same] at h
    exact ⟨h3, h.symm⟩

theorem LJ.OK.putE {s : LJ} (h : s.OK) (i j : ℤ) (x : ℝ) (sh : Tab) :
    LJ.OK { s with epsilon := put s.epsilon i j x, eps48 := put s.eps48 i j (48 * x), ljShift := sh } := by
  refine ⟨h.n, h.init, sym_put h.symE i j x, h.symS, h.symC, h.sq, h.cutSq, ?_, h.max, h.maxIs⟩
  intro k l hkl
  simp only [put_apply]
  split_ifs
  · rfl
  · exact h.e48 k l hkl

theorem LJ.OK.putS {s : LJ} (h : s.OK) (i j : ℤ) (x : ℝ) (sh : Tab) :
    LJ.OK { s with sigma := put s.sigma i j x, sigmaSq := put s.sigmaSq i j (x * x), ljShift := sh } := by
  refine ⟨h.n, h.init, h.symE, sym_put h.symS i j x, h.symC, ?_, h.cutSq, h.e48, h.max, h.maxIs⟩
  intro k l hkl
  simp only [put_apply]
  split_ifs
  · rfl
  · exact h.sq k l hkl

theorem LJ.OK.sigmaSq_symm {s : LJ} (h : s.OK) {i j : ℤ} (hij : In s.n i j) :
    s.sigmaSq i j = s.sigmaSq j i := by
  rw [h.sq i j hij, h.sq j i hij.symm, h.symS i j hij]

theorem LJ.OK.cutoffSq_symm {s : LJ} (h : s.OK) {i j : ℤ} (hij : In s.n i j) :
    s.cutoffSq i j = s.cutoffSq j i := by
  rw [h.cutSq i j hij, h.cutSq j i hij.symm, h.symC i j hij]

theorem assign_apply {old s : LJ} {i j : ℤ} (h : In s.n i j) :
    (old.assign s).epsilon i j = s.epsilon i j ∧ (old.assign s).sigma i j = s.sigma i j ∧
    (old.assign s).sigmaSq i j = s.sigmaSq i j ∧ (old.assign s).cutoff i j = s.cutoff i j ∧
    (old.assign s).cutoffSq i j = s.cutoffSq i j ∧ (old.assign s).ljShift i j = s.ljShift i j ∧
    (old.assign s).eps48 i j = s.eps48 i j := by
  simp only [LJ.assign, fill_in h, and_self]

theorem LJ.OK.assign {s : LJ} (old : LJ) (h : s.OK) : (old.assign s).OK := by
  have hsym : ∀ (a u : Tab), Sym s.n a → Sym s.n (fill s.n a u) := by
    intro a u ha i j hij
    rw [fill_in hij, fill_in hij.symm]; exact ha i j hij
  refine ⟨h.n, h.init, hsym _ _ h.symE, hsym _ _ h.symS, hsym _ _ h.symC, ?_, ?_, ?_, ?_, ?_⟩
  · intro i j hij; have hij' : In s.n i j := hij; simp only [LJ.assign, fill_in hij']; exact h.sq i j hij
  · intro i j hij; have hij' : In s.n i j := hij; simp only [LJ.assign, fill_in hij']; exact h.cutSq i j hij
  · intro i j hij; have hij' : In s.n i j := hij; simp only [LJ.assign, fill_in hij']; exact h.e48 i j hij
  · intro i j hij; have hij' : In s.n i j := hij; simp only [LJ.assign, fill_in hij']; exact h.max i j hij
  · exact h.maxIs.trans (maxOver_congr fun i j hij => (fill_in hij _ _).symm)

theorem setN_ok {s s' : LJ} {n : ℤ} (h : s.setNAtomType n = .ok s') : s'.n = n ∧ s'.n ≤ maxType := by
  unfold LJ.setNAtomType at h
  split_ifs at h
  simp only [Except.ok.injEq] at h
  subst h
  exact ⟨rfl, by simp only; omega⟩

theorem LJ.Used.ok {p : Prop} {s : LJ} (h : s.Used p) : s.OK := by
  induction h with
  | read h1 hs h2 =>
    obtain ⟨e, h3⟩ := setN_ok h1
    rw [← e] at hs
    exact (LJ.read_ok h3 hs h2).1
  | reread h hs h2 ih => exact (LJ.read_ok ih.n.2 hs h2).1
  | setEpsilon h h2 ih =>
    obtain ⟨_, rfl⟩ := LJ.setEpsilon_eq h2
    exact ih.putE _ _ _ _
  | setSigma h hp h2 ih =>
    obtain ⟨_, rfl⟩ := LJ.setSigma_eq h2
    exact ih.putS _ _ _ _
  | set h hp h2 ih =>
    rcases LJ.set_eq h2 with ⟨_, rfl⟩ | ⟨_, rfl⟩
    · exact ih.putE _ _ _ _
    · exact ih.putS _ _ _ _
  | assign old h ih => exact ih.assign old

theorem LJ.Used.shift {s : LJ} (h : s.Used False) : s.ShiftOK := by
  induction h with
  | read h1 hs h2 =>
    obtain ⟨e, h3⟩ := setN_ok h1
    rw [← e] at hs
    exact (LJ.read_ok h3 hs h2).2
  | reread h hs h2 ih => exact (LJ.read_ok h.ok.n.2 hs h2).2
  | @setEpsilon s t i j x h h2 ih =>
    obtain ⟨hij, rfl⟩ := LJ.setEpsilon_eq h2
    have ok := h.ok
    intro k l hkl
    simp only [put_apply]
    split_ifs with hc
    · rcases hc with ⟨rfl, rfl⟩ | ⟨rfl, rfl⟩
      · rfl
      · rw [ok.sigmaSq_symm hij, ok.cutoffSq_symm hij]
    · exact ih k l hkl
  | @setSigma s t i j x h hp h2 ih =>
    obtain ⟨hij, rfl⟩ := LJ.setSigma_eq h2
    obtain rfl : i = j := by tauto
    intro k l hkl
    simp only [put_apply, upd_apply, or_self]
    split_ifs with hc
    · rw [hc.1, hc.2]
    · exact ih k l hkl
  | @set s t name i j x h hp h2 ih =>
    obtain rfl : i = j := by tauto
    rcases LJ.set_eq h2 with ⟨_, rfl⟩ | ⟨_, rfl⟩ <;> intro k l hkl <;>
      simp only [put_apply, upd_apply, or_self] <;> split_ifs with hc
    · rw [hc.1, hc.2]
    · exact ih k l hkl
    · rw [hc.1, hc.2]
    · exact ih k l hkl
  | @assign s old h ih =>
    intro i j hij
    obtain ⟨h1, h2, h3, h4, h5, h6, h7⟩ := assign_apply (old := old) (s := s) hij
    rw [h1, h3, h5, h6]
    exact ih i j hij

end Verif.Pair
