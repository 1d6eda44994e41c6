/-
C86: exchange of the ends of two chains with regrowth of the bridges.
-/
import Verif.Double.Model
import Verif.Bridge.Props
import Mathlib.Data.List.Nodup
import Mathlib.Algebra.BigOperators.Group.Finset.Basic
import Mathlib.Order.Interval.Finset.Defs
import Mathlib.Data.Int.Interval

set_option autoImplicit false

namespace Verif.Double

open Verif.Cpp
open Verif.Cpp.Out
open Verif.Bridge (World Path)

variable {P : Type}

/-! ### Search for bridges -/

/-- A pair of places for bridges: another molecule, and an atom `a` of which the atom `nRegrow + 1` further
in direction `sign` is in the chain, such that both new bridges are short enough. -/
def Candidate (p : Pars P) (sign : ℤ) (x : Pos P) (i : ℕ) (c : ℕ × ℤ) : Prop :=
  c.1 < p.nMol ∧ c.1 ≠ i
    ∧ 0 ≤ c.2 ∧ c.2 < p.nAtom ∧ 0 ≤ c.2 + sign * (p.nRegrow + 1) ∧ c.2 + sign * (p.nRegrow + 1) < p.nAtom
    ∧ p.distSq (x i c.2) (x c.1 (c.2 + sign * (p.nRegrow + 1))) < p.bridgeSq
    ∧ p.distSq (x i (c.2 + sign * (p.nRegrow + 1))) (x c.1 c.2) < p.bridgeSq

open Classical in
/-- Candidates with one molecule in the order of the search. -/
noncomputable def row (p : Pars P) (sign : ℤ) (x : Pos P) (i j : ℕ) (ks : List ℕ) : List (ℕ × ℤ) :=
  (ks.filter fun (k : ℕ) => decide (p.close sign x i j (p.head sign + k * sign))).map
    fun (k : ℕ) => (j, p.head sign + k * sign)

/-- All candidates in the order of the search. -/
noncomputable def rows (p : Pars P) (sign : ℤ) (x : Pos P) (i : ℕ) (js : List ℕ) : List (ℕ × ℤ) :=
  js.flatMap fun j => if j ≠ i then row p sign x i j (List.range p.places) else []

theorem row_length_le (p : Pars P) (sign : ℤ) (x : Pos P) (i j : ℕ) (ks : List ℕ) :
    (row p sign x i j ks).length ≤ ks.length := by
  unfold row
  rw [List.length_map]
  exact List.length_filter_le _ _

open Classical in
theorem inner_eq (p : Pars P) (sign : ℤ) (x : Pos P) (i j : ℕ) (ks : List ℕ) : ∀ l : List (ℕ × ℤ),
    l.length + ks.length ≤ p.maxPair →
    loop (fun l (k : ℕ) =>
        if p.close sign x i j (p.head sign + k * sign) then do
          require (l.length < p.maxPair)
          ok (l ++ [(j, p.head sign + k * sign)])
        else ok l) ks l = ok (l ++ row p sign x i j ks) := by
  induction ks with
  | nil => intro l _; simp [row, loop_nil]
  | cons k ks ih =>
    intro l h
    rw [List.length_cons] at h
    rw [loop_cons]
    by_cases hc : p.close sign x i j (p.head sign + k * sign)
    · rw [if_pos hc, require_true (by omega)]
      simp only [ok_bind]
      rw [ih _ (by simp; omega)]
      simp [row, hc]
    · rw [if_neg hc]
      simp only [ok_bind]
      rw [ih _ (by omega)]
      simp [row, hc]

theorem outer_eq (p : Pars P) (sign : ℤ) (x : Pos P) (i : ℕ) (js : List ℕ) : ∀ l : List (ℕ × ℤ),
    l.length + (js.countP fun j => j ≠ i) * p.places ≤ p.maxPair →
    loop (fun l j =>
      if j ≠ i then
        loop (fun l (k : ℕ) =>
          open Classical in
          if p.close sign x i j (p.head sign + k * sign) then do
            require (l.length < p.maxPair)
            ok (l ++ [(j, p.head sign + k * sign)])
          else ok l) (List.range p.places) l
      else ok l) js l = ok (l ++ rows p sign x i js) := by
  induction js with
  | nil => intro l _; simp [rows, loop_nil]
  | cons j js ih =>
    intro l h
    rw [loop_cons]
    rw [List.countP_cons] at h
    by_cases hj : j ≠ i
    · rw [if_pos hj]
      simp only [hj, decide_true, if_true, ne_eq, not_false_eq_true] at h
      rw [Nat.add_mul, one_mul] at h
      rw [inner_eq p sign x i j _ l (by rw [List.length_range]; omega)]
      simp only [ok_bind]
      rw [ih]
      · simp [rows, hj]
      · have := row_length_le p sign x i j (List.range p.places)
        rw [List.length_range] at this
        simp only [List.length_append, ne_eq, decide_not] at h ⊢
        omega
    · rw [if_neg hj]
      simp only [ok_bind]
      rw [ih _ (le_trans (by simp [hj]) h)]
      simp [rows, hj]

theorem count_ne (n i : ℕ) (h : i < n) : (List.range n).countP (fun j => j ≠ i) = n - 1 := by
  have h1 := List.length_eq_countP_add_countP (fun j => decide (j = i)) (l := List.range n)
  rw [List.length_range] at h1
  have h2 : (List.range n).countP (fun j => decide (j = i)) = 1 := by
    have h3 := List.count_eq_one_of_mem List.nodup_range (List.mem_range.2 h)
    rw [List.count] at h3
    rw [← h3]
    apply List.countP_congr
    intro y _
    simp
  have h4 : (List.range n).countP (fun j => decide (j ≠ i))
      = (List.range n).countP (fun j => decide ¬ (decide (j = i) = true)) := by
    apply List.countP_congr
    intro y _
    simp
  rw [h4]
  omega

theorem scan_eq (p : Pars P) (sign : ℤ) (x : Pos P) (i : ℕ) (hi : i < p.nMol) :
    p.scan sign x i = ok (rows p sign x i (List.range p.nMol)) := by
  unfold Pars.scan
  rw [outer_eq p sign x i _ []]
  · simp
  · rw [count_ne _ _ hi]
    simp [Pars.maxPair]

/-- Indices the search visits. -/
theorem place_iff (p : Pars P) (sign : ℤ) (hs : sign = 1 ∨ sign = -1) (hn : p.nRegrow + 2 ≤ p.nAtom) (a : ℤ) :
    (∃ k : ℕ, k < p.places ∧ a = p.head sign + k * sign)
      ↔ 0 ≤ a ∧ a < p.nAtom ∧ 0 ≤ a + sign * (p.nRegrow + 1) ∧ a + sign * (p.nRegrow + 1) < p.nAtom := by
  unfold Pars.places Pars.head
  rcases hs with rfl | rfl
  · rw [if_neg (by norm_num)]
    constructor
    · rintro ⟨k, hk, rfl⟩; omega
    · intro h; exact ⟨a.toNat, by omega, by omega⟩
  · rw [if_pos rfl]
    constructor
    · rintro ⟨k, hk, rfl⟩; omega
    · intro h; exact ⟨(p.nAtom - 1 - a).toNat, by omega, by omega⟩

open Classical in
theorem mem_rows (p : Pars P) (sign : ℤ) (x : Pos P) (i : ℕ) (hs : sign = 1 ∨ sign = -1)
    (hn : p.nRegrow + 2 ≤ p.nAtom) (c : ℕ × ℤ) :
    c ∈ rows p sign x i (List.range p.nMol) ↔ Candidate p sign x i c := by
  obtain ⟨j, a⟩ := c
  have hp := place_iff p sign hs hn a
  unfold rows Candidate
  rw [List.mem_flatMap]
  constructor
  · rintro ⟨j', hj', h⟩
    by_cases hne : j' ≠ i
    · rw [if_pos hne] at h
      unfold row at h
      obtain ⟨k, hk, e⟩ := List.mem_map.1 h
      obtain ⟨hk1, hk2⟩ := List.mem_filter.1 hk
      simp only [Prod.mk.injEq] at e
      obtain ⟨rfl, rfl⟩ := e
      obtain ⟨r1, r2, r3, r4⟩ := hp.1 ⟨k, List.mem_range.1 hk1, rfl⟩
      have hc := of_decide_eq_true hk2
      exact ⟨List.mem_range.1 hj', hne, r1, r2, r3, r4, hc.1, hc.2⟩
    · rw [if_neg hne] at h
      exact absurd h List.not_mem_nil
  · rintro ⟨h1, h2, r1, r2, r3, r4, c1, c2⟩
    obtain ⟨k, hk, rfl⟩ := hp.2 ⟨r1, r2, r3, r4⟩
    refine ⟨j, List.mem_range.2 h1, ?_⟩
    rw [if_pos h2]
    refine List.mem_map.2 ⟨k, List.mem_filter.2 ⟨List.mem_range.2 hk, ?_⟩, rfl⟩
    exact decide_eq_true ⟨c1, c2⟩

theorem rows_nodup (p : Pars P) (sign : ℤ) (x : Pos P) (i : ℕ) (hs : sign = 1 ∨ sign = -1) (js : List ℕ)
    (hj : js.Nodup) : (rows p sign x i js).Nodup := by
  unfold rows
  rw [List.nodup_flatMap]
  constructor
  · intro j _
    split_ifs
    · unfold row
      refine (List.nodup_range.filter _).map ?_
      intro k k' e
      simp only [Prod.mk.injEq, true_and] at e
      rcases hs with rfl | rfl <;> omega
    · exact List.nodup_nil
  · refine hj.imp ?_
    intro j j' hne c hc hc'
    apply hne
    have key : ∀ j, c ∈ (if j ≠ i then row p sign x i j (List.range p.places) else []) → c.1 = j := by
      intro j h
      split_ifs at h
      · obtain ⟨k, _, e⟩ := List.mem_map.1 h
        rw [← e]
      · exact absurd h List.not_mem_nil
    rw [← key j hc, ← key j' hc']

/-- **C86 (search).**  The search for bridges never writes past its buffers, and finds each pair of places
for bridges exactly once and nothing else. -/
theorem C86_scan (p : Pars P) (sign : ℤ) (x : Pos P) (i : ℕ) (hi : i < p.nMol) (hs : sign = 1 ∨ sign = -1)
    (hn : p.nRegrow + 2 ≤ p.nAtom) :
    ∃ l, p.scan sign x i = ok l ∧ l.Nodup ∧ l.length ≤ p.maxPair ∧ ∀ c, c ∈ l ↔ Candidate p sign x i c := by
  refine ⟨_, scan_eq p sign x i hi, rows_nodup p sign x i hs _ List.nodup_range, ?_,
    mem_rows p sign x i hs hn⟩
  have key : ∀ js : List ℕ, (rows p sign x i js).length ≤ (js.countP fun j => j ≠ i) * p.places := by
    intro js
    induction js with
    | nil => simp [rows]
    | cons j js ih =>
      have hr := row_length_le p sign x i j (List.range p.places)
      rw [List.length_range] at hr
      unfold rows at ih ⊢
      rw [List.flatMap_cons, List.length_append, List.countP_cons]
      by_cases hj : j ≠ i
      · rw [if_pos hj, if_pos (decide_eq_true hj), Nat.add_mul, one_mul]
        omega
      · rw [if_neg hj, if_neg (by simpa using hj)]
        simpa using ih
  have := key (List.range p.nMol)
  rwa [count_ne _ _ hi] at this

/-- **C86 (choice).**  Each candidate is chosen by exactly one value of the draw among as many values as
there are candidates, and the probability reported is the inverse of their number; without a candidate
nothing is found. -/
theorem C86_forward (p : Pars P) (sign : ℤ) (x : Pos P) (i : ℕ) (hi : i < p.nMol) (hs : sign = 1 ∨ sign = -1)
    (hn : p.nRegrow + 2 ≤ p.nAtom) :
    ∃ n : ℕ, (n = 0 ↔ ∀ c, ¬ Candidate p sign x i c)
      ∧ (n = 0 → ∀ choice, p.forwardScan sign x i choice = ok none)
      ∧ (∀ choice < n, ∃ c, Candidate p sign x i c
          ∧ p.forwardScan sign x i choice = ok (some ⟨c.1, c.2 + sign, 1 / n⟩))
      ∧ (∀ c, Candidate p sign x i c → ∃! choice, choice < n
          ∧ p.forwardScan sign x i choice = ok (some ⟨c.1, c.2 + sign, 1 / n⟩)) := by
  obtain ⟨l, hl, hd, _, hm⟩ := C86_scan p sign x i hi hs hn
  have hc : ¬ (p.nRegrow : ℤ) > p.nAtom - 2 := by omega
  have h0 : ∀ choice (h : choice < l.length),
      p.forwardScan sign x i choice = ok (some ⟨l[choice].1, l[choice].2 + sign, 1 / l.length⟩) := by
    intro choice h
    unfold Pars.forwardScan
    rw [check_true hc, hl]
    simp only [ok_bind]
    rw [if_pos (by omega), List.getElem?_eq_getElem h]
  refine ⟨l.length, ?_, ?_, ?_, ?_⟩
  · rw [List.length_eq_zero_iff, List.eq_nil_iff_forall_not_mem]
    simp only [hm]
  · intro h choice
    unfold Pars.forwardScan
    rw [check_true hc, hl]
    simp only [ok_bind]
    rw [if_neg (by omega)]
  · intro choice h
    exact ⟨l[choice], (hm _).1 (List.getElem_mem h), h0 choice h⟩
  · intro c hcand
    obtain ⟨k, hk, e⟩ := List.getElem_of_mem ((hm c).2 hcand)
    refine ⟨k, ⟨hk, ?_⟩, ?_⟩
    · rw [h0 k hk, e]
    · rintro k' ⟨hk', e'⟩
      rw [h0 k' hk'] at e'
      simp only [ok.injEq, Option.some.injEq, Found.mk.injEq, and_true, add_left_inj] at e'
      have : l[k'] = l[k] := by rw [e]; exact Prod.ext e'.1 e'.2
      exact (hd.getElem_inj_iff).1 this

/-- **C86 (short chains).**  A chain with fewer than two atoms besides the segment is refused. -/
theorem C86_refused (p : Pars P) (sign : ℤ) (x : Pos P) (i choice : ℕ) (hn : p.nAtom < p.nRegrow + 2) :
    p.forwardScan sign x i choice = Out.throw := by
  unfold Pars.forwardScan
  rw [check_false (not_not.2 (by omega))]
  rfl

open Classical in
theorem recount_eq (p : Pars P) (sign : ℤ) (x : Pos P) (i : ℕ) :
    p.recount sign x i = (rows p sign x i (List.range p.nMol)).length := by
  have inner : ∀ (j : ℕ) (ks : List ℕ) (n : ℕ), ks.foldl (fun n (k : ℕ) =>
      if p.close sign x i j (p.head sign + k * sign) then n + 1 else n) n
        = n + (row p sign x i j ks).length := by
    intro j ks
    induction ks with
    | nil => intro n; simp [row]
    | cons k ks ih =>
      intro n
      rw [List.foldl_cons, ih]
      by_cases hc : p.close sign x i j (p.head sign + k * sign)
      · simp [row, hc]; omega
      · simp [row, hc]
  have outer : ∀ (js : List ℕ) (n : ℕ), js.foldl (fun n j =>
      if j ≠ i then
        (List.range p.places).foldl (fun n (k : ℕ) =>
          if p.close sign x i j (p.head sign + k * sign) then n + 1 else n) n
      else n) n = n + (rows p sign x i js).length := by
    intro js
    induction js with
    | nil => intro n; simp [rows]
    | cons j js ih =>
      intro n
      rw [List.foldl_cons, ih]
      by_cases hj : j ≠ i
      · rw [if_pos hj, inner]
        simp [rows, hj]
        omega
      · rw [if_neg hj]
        simp [rows, hj]
  unfold Pars.recount
  rw [outer, zero_add]

/-- **C86 (reverse search).**  After a move found by `forwardScan` in positions `x`, `reverseScan` in any new
positions `y` finds the way back with a probability exactly if `forwardScan` in `y` could choose the same
molecules and atoms, and would report that probability. -/
theorem C86_reverse (p : Pars P) (sign : ℤ) (x y : Pos P) (i choice : ℕ) (f : Found) (hi : i < p.nMol)
    (hs : sign = 1 ∨ sign = -1) (hn : p.nRegrow + 2 ≤ p.nAtom)
    (h : p.forwardScan sign x i choice = ok (some f)) (q : ℝ) :
    p.reverseScan sign y i f.jMol (f.beginId - sign) = some q
      ↔ ∃ choice', p.forwardScan sign y i choice' = ok (some ⟨f.jMol, f.beginId, q⟩) := by
  have scanF : ∀ (z : Pos P) (ch : ℕ) (g : Found), p.forwardScan sign z i ch = ok (some g) →
      Candidate p sign z i (g.jMol, g.beginId - sign)
        ∧ g.prob = 1 / (rows p sign z i (List.range p.nMol)).length := by
    intro z ch g hg
    have hc : ¬ (p.nRegrow : ℤ) > p.nAtom - 2 := by omega
    unfold Pars.forwardScan at hg
    rw [check_true hc, scan_eq p sign z i hi] at hg
    simp only [ok_bind] at hg
    split_ifs at hg with h1
    · split at hg
      · cases hg
      · rename_i c hcs
        simp only [ok.injEq, Option.some.injEq] at hg
        subst hg
        refine ⟨?_, rfl⟩
        rw [← mem_rows p sign z i hs hn]
        have := List.mem_of_getElem? hcs
        simpa using this
    · cases hg
  obtain ⟨hx, _⟩ := scanF x choice f h
  constructor
  · intro hr
    unfold Pars.reverseScan at hr
    split_ifs at hr with hcl
    simp only [Option.some.injEq] at hr
    have hy : Candidate p sign y i (f.jMol, f.beginId - sign) :=
      ⟨hx.1, hx.2.1, hx.2.2.1, hx.2.2.2.1, hx.2.2.2.2.1, hx.2.2.2.2.2.1, hcl.1, hcl.2⟩
    obtain ⟨k, hk, e⟩ := List.getElem_of_mem ((mem_rows p sign y i hs hn _).2 hy)
    refine ⟨k, ?_⟩
    have hc : ¬ (p.nRegrow : ℤ) > p.nAtom - 2 := by omega
    unfold Pars.forwardScan
    rw [check_true hc, scan_eq p sign y i hi]
    simp only [ok_bind]
    rw [if_pos (by omega), List.getElem?_eq_getElem hk, e]
    rw [recount_eq] at hr
    simp [hr]
  · rintro ⟨k, hk⟩
    obtain ⟨hy, hq⟩ := scanF y k _ hk
    unfold Pars.reverseScan
    rw [if_pos ⟨hy.2.2.2.2.2.2.1, hy.2.2.2.2.2.2.2⟩, recount_eq]
    exact congrArg some hq.symm

/-! ### Indices of a move -/

/-- **C86 (indices).**  For what the search finds, the segment has a fixed atom on each side within the chain,
the ends to be exchanged are the rest of the chain beyond the segment, and `bonds[k]` is the type of the
bond between the `k`-th last atom of the segment and the atom after it. -/
theorem C86_indices (p : Pars P) (sign : ℤ) (x : Pos P) (i : ℕ) (c : ℕ × ℤ) (hs : sign = 1 ∨ sign = -1)
    (hc : Candidate p sign x i c) :
    (∀ k : ℤ, -1 ≤ k → k ≤ p.nRegrow → 0 ≤ c.2 + sign + k * sign ∧ c.2 + sign + k * sign < p.nAtom)
    ∧ 1 ≤ p.nEnd sign (c.2 + sign)
    ∧ (∀ a : ℤ, (∃ k : ℕ, (k : ℤ) < p.nEnd sign (c.2 + sign) ∧ a = c.2 + sign + p.nRegrow * sign + k * sign)
        ↔ 0 ≤ a ∧ a < p.nAtom ∧ 0 ≤ (a - (c.2 + sign + p.nRegrow * sign)) * sign)
    ∧ (∀ k : ℤ, 0 ≤ k → k ≤ p.nRegrow →
        let u := c.2 + sign + (p.nRegrow - 1 - k) * sign
        p.bondId sign (c.2 + sign) k = min u (u + sign)
        ∧ 0 ≤ p.bondId sign (c.2 + sign) k ∧ p.bondId sign (c.2 + sign) k < p.nAtom - 1) := by
  obtain ⟨_, _, r1, r2, r3, r4, _, _⟩ := hc
  rcases hs with rfl | rfl
  · refine ⟨fun k h1 h2 => by omega, ?_, fun a => ?_, fun k h1 h2 => ?_⟩
    · simp only [Pars.nEnd, if_true]; omega
    · simp only [Pars.nEnd, if_true]
      constructor
      · rintro ⟨k, hk, rfl⟩; omega
      · intro h; exact ⟨(a - (c.2 + 1 + p.nRegrow)).toNat, by omega, by omega⟩
    · simp only [Pars.bondId, if_true]; omega
  · have hne : ¬ (-1 : ℤ) = 1 := by norm_num
    refine ⟨fun k h1 h2 => by omega, ?_, fun a => ?_, fun k h1 h2 => ?_⟩
    · simp only [Pars.nEnd, hne, if_false]; omega
    · simp only [Pars.nEnd, hne, if_false]
      constructor
      · rintro ⟨k, hk, rfl⟩; omega
      · intro h; exact ⟨((c.2 - 1 - p.nRegrow) - a).toNat, by omega, by omega⟩
    · simp only [Pars.bondId, hne, if_false]; omega

/-! ### Exchange of ends -/

/-- Atoms of the ends beyond the segments. -/
def Tail (p : Pars P) (sign beginId a : ℤ) : Prop :=
  0 ≤ a ∧ a < p.nAtom ∧ 0 ≤ (a - (beginId + p.nRegrow * sign)) * sign

/-- Atoms of the segments. -/
def Seg (p : Pars P) (sign beginId a : ℤ) : Prop := ∃ k : ℕ, k < p.nRegrow ∧ a = beginId + k * sign

open Classical in
/-- Exchange of the positions of two molecules at a set of indices. -/
noncomputable def exchange (S : ℤ → Prop) (i j : ℕ) (x : Pos P) : Pos P := fun m a =>
  if S a then (if m = i then x j a else if m = j then x i a else x m a) else x m a

theorem fold_exchange (i j : ℕ) (hij : i ≠ j) (b sign : ℤ) (hs : sign = 1 ∨ sign = -1) (x : Pos P) (n : ℕ) :
    (List.range n).foldl (fun x (k : ℕ) =>
      put (put x i (b + k * sign) (x j (b + k * sign))) j (b + k * sign) (x i (b + k * sign))) x
      = exchange (fun a => ∃ k : ℕ, k < n ∧ a = b + k * sign) i j x := by
  induction n with
  | zero => funext m a; simp [exchange]
  | succ n ih =>
    rw [List.range_succ, List.foldl_append, ih, List.foldl_cons, List.foldl_nil]
    have hnew : ¬ ∃ k : ℕ, k < n ∧ b + (n : ℤ) * sign = b + k * sign := by
      rintro ⟨k, hk, e⟩
      rcases hs with rfl | rfl <;> omega
    funext m a
    by_cases ha : a = b + n * sign
    · subst ha
      have h1 : ∃ k : ℕ, k < n + 1 ∧ b + (n : ℤ) * sign = b + k * sign := ⟨n, by omega, rfl⟩
      unfold put exchange
      simp only [if_neg hnew, if_pos h1, and_true]
      by_cases hj : m = j
      · subst hj
        rw [if_pos rfl, if_neg (fun e => hij e.symm), if_pos rfl]
      · rw [if_neg hj, if_neg hj]
    · have h2 : (∃ k : ℕ, k < n + 1 ∧ a = b + k * sign) ↔ ∃ k : ℕ, k < n ∧ a = b + k * sign := by
        constructor
        · rintro ⟨k, hk, e⟩
          refine ⟨k, ?_, e⟩
          rcases Nat.lt_succ_iff_lt_or_eq.1 hk with h | rfl
          · exact h
          · exact absurd e ha
        · rintro ⟨k, hk, e⟩; exact ⟨k, by omega, e⟩
      unfold put exchange
      simp only [ha, and_false, if_false]
      by_cases h3 : ∃ k : ℕ, k < n ∧ a = b + k * sign
      · rw [if_pos h3, if_pos (h2.2 h3)]
      · rw [if_neg h3, if_neg (fun h => h3 (h2.1 h))]

/-- **C86 (exchange).**  The loop exchanges the positions of the two molecules at the atoms beyond the
segments and moves no other atom. -/
theorem C86_swap (p : Pars P) (sign : ℤ) (x y : Pos P) (i : ℕ) (c : ℕ × ℤ) (hs : sign = 1 ∨ sign = -1)
    (hc : Candidate p sign y i c) :
    p.swapEnds sign i c.1 (c.2 + sign) x = exchange (Tail p sign (c.2 + sign)) i c.1 x := by
  have h := (C86_indices p sign y i c hs hc).2.2.1
  have e := fold_exchange i c.1 (fun e => hc.2.1 e.symm) (c.2 + sign + p.nRegrow * sign) sign hs x
    (p.nEnd sign (c.2 + sign)).toNat
  unfold Pars.swapEnds
  rw [show (fun x (k : ℕ) =>
      let a := c.2 + sign + p.nRegrow * sign + k * sign
      let r := x i a
      put (put x i a (x c.1 a)) c.1 a r) = fun (x : Pos P) (k : ℕ) =>
        put (put x i (c.2 + sign + p.nRegrow * sign + k * sign)
          (x c.1 (c.2 + sign + p.nRegrow * sign + k * sign))) c.1
          (c.2 + sign + p.nRegrow * sign + k * sign) (x i (c.2 + sign + p.nRegrow * sign + k * sign)) from rfl, e]
  congr 1
  funext a
  unfold Tail
  rw [← h a]
  simp only [eq_iff_iff]
  constructor <;> rintro ⟨k, hk, rfl⟩ <;> exact ⟨k, by omega, rfl⟩

theorem exchange_twice (S : ℤ → Prop) (i j : ℕ) (x : Pos P) : exchange S i j (exchange S i j x) = x := by
  funext m a
  unfold exchange
  by_cases hS : S a
  · simp only [if_pos hS]
    by_cases h1 : m = i
    · by_cases h2 : j = i <;> simp [h1, h2]
    · by_cases h2 : m = j
      · subst h2
        simp [h1]
      · simp [h1, h2]
  · simp only [if_neg hS]

open Classical in
theorem fold_restore (i j : ℕ) (b sign : ℤ) (x0 x : Pos P) (n : ℕ) :
    (List.range n).foldl (fun x (k : ℕ) =>
      put (put x i (b + k * sign) (x0 i (b + k * sign))) j (b + k * sign) (x0 j (b + k * sign))) x
      = fun m a => if (m = i ∨ m = j) ∧ ∃ k : ℕ, k < n ∧ a = b + k * sign then x0 m a else x m a := by
  induction n with
  | zero => funext m a; simp
  | succ n ih =>
    rw [List.range_succ, List.foldl_append, ih, List.foldl_cons, List.foldl_nil]
    funext m a
    unfold put
    by_cases ha : a = b + n * sign
    · subst ha
      have h1 : ∃ k : ℕ, k < n + 1 ∧ b + (n : ℤ) * sign = b + k * sign := ⟨n, by omega, rfl⟩
      simp only [and_true, h1]
      by_cases hj : m = j
      · simp [hj]
      · by_cases hi : m = i
        · subst hi
          simp [hj]
        · simp [hi, hj]
    · have h2 : (∃ k : ℕ, k < n + 1 ∧ a = b + k * sign) ↔ ∃ k : ℕ, k < n ∧ a = b + k * sign := by
        constructor
        · rintro ⟨k, hk, e⟩
          refine ⟨k, ?_, e⟩
          rcases Nat.lt_succ_iff_lt_or_eq.1 hk with h | rfl
          · exact h
          · exact absurd e ha
        · rintro ⟨k, hk, e⟩; exact ⟨k, by omega, e⟩
      simp only [ha, and_false, if_false, h2]

/-- **C86 (rejection).**  Whatever positions the segments were given after the exchange of ends, a rejected
move leaves all atoms where they were. -/
theorem C86_restore (p : Pars P) (sign : ℤ) (x y : Pos P) (i : ℕ) (c : ℕ × ℤ) (hs : sign = 1 ∨ sign = -1)
    (hc : Candidate p sign x i c)
    (hy : ∀ m a, ¬ ((m = i ∨ m = c.1) ∧ Seg p sign (c.2 + sign) a) →
      y m a = p.swapEnds sign i c.1 (c.2 + sign) x m a) :
    p.swapEnds sign i c.1 (c.2 + sign) (p.restoreSegments sign i c.1 (c.2 + sign) x y) = x := by
  have e : p.restoreSegments sign i c.1 (c.2 + sign) x y = exchange (Tail p sign (c.2 + sign)) i c.1 x := by
    unfold Pars.restoreSegments
    simp only
    rw [fold_restore]
    funext m a
    by_cases h : (m = i ∨ m = c.1) ∧ ∃ k : ℕ, k < p.nRegrow ∧ a = c.2 + sign + k * sign
    · rw [if_pos h]
      have hT : ¬ Tail p sign (c.2 + sign) a := by
        obtain ⟨k, hk, rfl⟩ := h.2
        rintro ⟨_, _, h3⟩
        rcases hs with rfl | rfl <;> omega
      unfold exchange
      rw [if_neg hT]
    · rw [if_neg h, hy m a h, C86_swap p sign x x i c hs hc]
  rw [e, C86_swap p sign _ x i c hs hc, exchange_twice]

/-! ### Energy of the atoms that are not regrown -/

open Classical in
/-- Atoms outside of the segments. -/
noncomputable def rest (p : Pars P) (sign : ℤ) (i j : ℕ) (beginId : ℤ) : Finset (ℕ × ℤ) :=
  (Finset.range p.nMol ×ˢ Finset.Ico 0 (p.nAtom : ℤ)).filter
    fun s => ¬ ((s.1 = i ∨ s.1 = j) ∧ Seg p sign beginId s.2)

/-- Energy of the atoms in a set: pair energies `u` of all pairs but bonded ones, external energies `v`, and
energies of bonds; `typ` is the type of an atom, the type of a bond is given by its index. -/
noncomputable def energyOf {T : Type} (R : Finset (ℕ × ℤ)) (typ : ℕ → ℤ → T) (u : T → T → P → P → ℝ)
    (v : T → P → ℝ) (bond : ℤ → P → P → ℝ) (x : Pos P) : ℝ :=
  ∑ s ∈ R, (v (typ s.1 s.2) (x s.1 s.2) + ∑ t ∈ R,
    ((if s = t ∨ (s.1 = t.1 ∧ |s.2 - t.2| = 1) then 0 else
        u (typ s.1 s.2) (typ t.1 t.2) (x s.1 s.2) (x t.1 t.2) / 2)
      + if s.1 = t.1 ∧ t.2 = s.2 + 1 then bond s.2 (x s.1 s.2) (x t.1 t.2) else 0))

open Classical in
/-- Relabelling of atoms by the exchange. -/
noncomputable def relabel (S : ℤ → Prop) (i j : ℕ) (s : ℕ × ℤ) : ℕ × ℤ :=
  (if S s.2 then (if s.1 = i then j else if s.1 = j then i else s.1) else s.1, s.2)

theorem relabel_twice (S : ℤ → Prop) (i j : ℕ) (s : ℕ × ℤ) : relabel S i j (relabel S i j s) = s := by
  obtain ⟨m, a⟩ := s
  unfold relabel
  by_cases hS : S a
  · simp only [if_pos hS]
    by_cases h1 : m = i
    · subst h1
      rw [if_pos rfl]
      by_cases h2 : j = m
      · rw [if_pos h2, h2]
      · rw [if_neg h2, if_pos rfl]
    · rw [if_neg h1]
      by_cases h2 : m = j
      · rw [if_pos h2, if_pos rfl, h2]
      · rw [if_neg h2, if_neg h1, if_neg h2]
  · simp only [if_neg hS]

theorem relabel_inj (S : ℤ → Prop) (i j : ℕ) (s t : ℕ × ℤ) : relabel S i j s = relabel S i j t ↔ s = t :=
  ⟨fun h => by rw [← relabel_twice S i j s, h, relabel_twice], fun h => by rw [h]⟩

theorem relabel_mem (p : Pars P) (sign : ℤ) (i j : ℕ) (b : ℤ) (hi : i < p.nMol) (hj : j < p.nMol)
    (S : ℤ → Prop) (s : ℕ × ℤ) (h : s ∈ rest p sign i j b) : relabel S i j s ∈ rest p sign i j b := by
  obtain ⟨m, a⟩ := s
  unfold rest at h ⊢
  simp only [Finset.mem_filter, Finset.mem_product, Finset.mem_range, Finset.mem_Ico] at h ⊢
  obtain ⟨⟨h1, h2⟩, h3⟩ := h
  unfold relabel
  by_cases hS : S a
  · simp only [if_pos hS]
    by_cases e1 : m = i
    · rw [if_pos e1]; exact ⟨⟨hj, h2⟩, fun h => h3 ⟨Or.inl e1, h.2⟩⟩
    · rw [if_neg e1]
      by_cases e2 : m = j
      · rw [if_pos e2]; exact ⟨⟨hi, h2⟩, fun h => h3 ⟨Or.inr e2, h.2⟩⟩
      · rw [if_neg e2]; exact ⟨⟨h1, h2⟩, h3⟩
  · simp only [if_neg hS]; exact ⟨⟨h1, h2⟩, h3⟩

theorem exchange_relabel (S : ℤ → Prop) (i j : ℕ) (x : Pos P) (s : ℕ × ℤ) :
    exchange S i j x s.1 s.2 = x (relabel S i j s).1 (relabel S i j s).2 := by
  unfold exchange relabel
  split_ifs <;> rfl

/-- Atoms outside of the segments that are neighbours in a chain are on the same side of the segment. -/
theorem relabel_adjacent (p : Pars P) (sign : ℤ) (i j : ℕ) (b : ℤ) (hs : sign = 1 ∨ sign = -1)
    (hr : 1 ≤ p.nRegrow) (s t : ℕ × ℤ) (hs' : s ∈ rest p sign i j b) (ht : t ∈ rest p sign i j b)
    (hd : |s.2 - t.2| = 1) :
    (relabel (Tail p sign b) i j s).1 = (relabel (Tail p sign b) i j t).1 ↔ s.1 = t.1 := by
  obtain ⟨m, a⟩ := s
  obtain ⟨m', a'⟩ := t
  unfold rest at hs' ht
  simp only [Finset.mem_filter, Finset.mem_product, Finset.mem_range, Finset.mem_Ico] at hs' ht hd ⊢
  obtain ⟨⟨_, b1⟩, s1⟩ := hs'
  obtain ⟨⟨_, b2⟩, t1⟩ := ht
  have hd' : a = a' + 1 ∨ a' = a + 1 := by
    rcases abs_eq (show (0 : ℤ) ≤ 1 by norm_num) |>.1 hd with h | h <;> omega
  -- an atom next to the tail, but not in it, is the last atom of the segment
  have seg : ∀ c d : ℤ, (c = d + 1 ∨ d = c + 1) → 0 ≤ c → c < p.nAtom → 0 ≤ d → d < p.nAtom →
      Tail p sign b c → ¬ Tail p sign b d → Seg p sign b d := by
    intro c d h c1 c2 d1 d2 hc hd
    refine ⟨p.nRegrow - 1, by omega, ?_⟩
    have hd3 : ¬ 0 ≤ (d - (b + p.nRegrow * sign)) * sign := fun h3 => hd ⟨d1, d2, h3⟩
    have hc3 := hc.2.2
    have : ((p.nRegrow - 1 : ℕ) : ℤ) = p.nRegrow - 1 := by omega
    rw [this]
    rcases hs with rfl | rfl <;> omega
  unfold relabel
  simp only
  by_cases hS : Tail p sign b a <;> by_cases hS' : Tail p sign b a'
  · simp only [if_pos hS, if_pos hS']
    split_ifs <;> omega
  · have h1 : ¬ (m' = i ∨ m' = j) := fun h =>
      t1 ⟨h, seg a a' (by omega) b1.1 b1.2 b2.1 b2.2 hS hS'⟩
    simp only [if_pos hS, if_neg hS']
    split_ifs <;> omega
  · have h1 : ¬ (m = i ∨ m = j) := fun h =>
      s1 ⟨h, seg a' a (by omega) b2.1 b2.2 b1.1 b1.2 hS' hS⟩
    simp only [if_neg hS, if_pos hS']
    split_ifs <;> omega
  · simp only [if_neg hS, if_neg hS']

/-- **C86 (energy of the rest).**  If both molecules have the same types of atoms, the exchange of ends does
not change the energy of the atoms that are not regrown. -/
theorem C86_rest {T : Type} (p : Pars P) (sign : ℤ) (x y : Pos P) (i : ℕ) (c : ℕ × ℤ)
    (hs : sign = 1 ∨ sign = -1) (hi : i < p.nMol) (hr : 1 ≤ p.nRegrow) (hc : Candidate p sign y i c)
    (typ : ℕ → ℤ → T) (htyp : ∀ a, typ i a = typ c.1 a) (u : T → T → P → P → ℝ) (v : T → P → ℝ)
    (bond : ℤ → P → P → ℝ) :
    energyOf (rest p sign i c.1 (c.2 + sign)) typ u v bond (p.swapEnds sign i c.1 (c.2 + sign) x)
      = energyOf (rest p sign i c.1 (c.2 + sign)) typ u v bond x := by
  rw [C86_swap p sign x y i c hs hc]
  obtain ⟨j, a0⟩ := c
  simp only at htyp ⊢
  have hj : j < p.nMol := hc.1
  set b := a0 + sign with hb
  set S := Tail p sign b with hS
  set R := rest p sign i j b with hR
  have ht : ∀ s : ℕ × ℤ, typ s.1 s.2 = typ (relabel S i j s).1 (relabel S i j s).2 := by
    intro s
    unfold relabel
    simp only
    split_ifs with h1 h2 h3
    · rw [h2, htyp]
    · rw [h3, htyp]
    · rfl
    · rfl
  have hmem : ∀ s ∈ R, relabel S i j s ∈ R := fun s h => relabel_mem p sign i j b hi hj S s h
  have h2 : ∀ s : ℕ × ℤ, (relabel S i j s).2 = s.2 := fun s => rfl
  unfold energyOf
  refine Finset.sum_nbij' (relabel S i j) (relabel S i j) hmem hmem
    (fun s _ => relabel_twice S i j s) (fun s _ => relabel_twice S i j s) ?_
  intro s hsR
  rw [exchange_relabel, ht s]
  congr 1
  refine Finset.sum_nbij' (relabel S i j) (relabel S i j) hmem hmem
    (fun s _ => relabel_twice S i j s) (fun s _ => relabel_twice S i j s) ?_
  intro t htR
  rw [exchange_relabel, ht t]
  simp only [relabel_inj, h2]
  have hadj := relabel_adjacent p sign i j b hs hr s t hsR htR
  have e1 : ((relabel S i j s).1 = (relabel S i j t).1 ∧ |s.2 - t.2| = 1) ↔ (s.1 = t.1 ∧ |s.2 - t.2| = 1) :=
    ⟨fun h => ⟨(hadj h.2).1 h.1, h.2⟩, fun h => ⟨(hadj h.2).2 h.1, h.2⟩⟩
  have e2 : ((relabel S i j s).1 = (relabel S i j t).1 ∧ t.2 = s.2 + 1) ↔ (s.1 = t.1 ∧ t.2 = s.2 + 1) := by
    have hab : t.2 = s.2 + 1 → |s.2 - t.2| = 1 := by
      intro h
      rw [h, show s.2 - (s.2 + 1) = -1 by ring]
      rfl
    exact ⟨fun h => ⟨(hadj (hab h.2)).1 h.1, h.2⟩, fun h => ⟨(hadj (hab h.2)).2 h.1, h.2⟩⟩
  simp only [e1, e2]

/-! ### Detailed balance -/

/-- A state with the trial positions of its segments.  `wj` is what molecule `j` sees when the segment of `i`
is deleted, `wi` what molecule `i` sees in the presence of all others; `pick` is the probability of
choosing the pair of places in this state, if it can be chosen. -/
structure Side (P : Type) where
  restEnergy : ℝ
  wi : World P
  wj : World P
  pi : Path P
  pj : Path P
  Zi : List P → ℝ
  Zj : List P → ℝ
  condI : List P → P → P → ℝ
  midI : List P → P → P → ℝ
  condJ : List P → P → P → ℝ
  midJ : List P → P → P → ℝ
  pick : Option ℝ

/-- Energy of the whole state. -/
noncomputable def Side.energy (s : Side P) : ℝ :=
  s.restEnergy + Verif.Bridge.energyPath s.wj s.pj + Verif.Bridge.energyPath s.wi s.pi

/-- Density of the trials around the segments. -/
noncomputable def Side.trials (s : Side P) : ℝ :=
  Verif.Bridge.trialPath s.condI s.midI s.pi * Verif.Bridge.trialPath s.condJ s.midJ s.pj

/-- Density of growing the segments of a state, first `j`, then `i`. -/
noncomputable def Side.grow (s : Side P) (c : ℕ → ℝ) : ℝ :=
  (Verif.Bridge.genPath s.wj c s.Zj s.pj * (s.wj.addSequence s.pj.ends s.pj.last).2)
    * (Verif.Bridge.genPath s.wi c s.Zi s.pi * (s.wi.addSequence s.pi.ends s.pi.last).2)

/-- Density of the transition from `o` to `n` in the Boltzmann distribution, with all trial positions:
choice of the places, deletion of `i` and `j`, growth of `j` and `i`, acceptance. -/
noncomputable def doubleFlow (beta : ℝ) (c : ℕ → ℝ) (o n : Side P) : ℝ :=
  Real.exp (-beta * o.energy) * o.trials * o.pick.getD 0 * (n.grow c * n.trials)
    * accept ((n.wj.addSequence n.pj.ends n.pj.last).1 * (n.wi.addSequence n.pi.ends n.pi.last).1)
        (o.wi.deleteSequence o.pi.visit * o.wj.deleteSequence o.pj.visit) (o.pick.getD 0) n.pick

/-- What is required of a state: valid paths of `n` atoms, positive biases, normalizations of the bias that
are right up to the factor `κ`, and a probability of choice that is positive if there is one. -/
structure Side.Good (s : Side P) (beta κ : ℝ) (n : ℕ) : Prop where
  vi : s.pi.Valid
  vj : s.pj.Valid
  li : s.pi.ends.length = n
  lj : s.pj.ends.length = n
  bi : s.wi.beta = beta
  bj : s.wj.beta = beta
  biasI : ∀ l x, 0 < s.wi.bias l x
  biasJ : ∀ l x, 0 < s.wj.bias l x
  normI : ∀ l, 0 < s.wi.norm l
  normJ : ∀ l, 0 < s.wj.norm l
  zi : ∀ l, 0 < s.Zi l
  zj : ∀ l, 0 < s.Zj l
  ki : ∀ l, s.wi.norm l = κ * s.Zi l
  kj : ∀ l, s.wj.norm l = κ * s.Zj l
  pick : ∀ q, s.pick = some q → 0 < q

theorem grow_side (s : Side P) (beta κ : ℝ) (n : ℕ) (c : ℕ → ℝ) (h : s.Good beta κ n) :
    s.grow c = (Verif.Bridge.constants c 0 n * c n * κ) ^ 2
      * Real.exp (-beta * (Verif.Bridge.energyPath s.wj s.pj + Verif.Bridge.energyPath s.wi s.pi))
      / (Verif.Bridge.rosenPath s.wj s.pj * Verif.Bridge.rosenPath s.wi s.pi) := by
  unfold Side.grow
  rw [Verif.Bridge.grow_eq s.wj c s.Zj h.zj s.pj h.vj h.biasJ h.normJ,
    Verif.Bridge.grow_eq s.wi c s.Zi h.zi s.pi h.vi h.biasI h.normI, h.li, h.lj, h.bi, h.bj, h.ki, h.kj,
    mul_add, Real.exp_add]
  have h1 := (h.zi (Verif.Bridge.latest s.pi.ends)).ne'
  have h2 := (h.zj (Verif.Bridge.latest s.pj.ends)).ne'
  have h3 := (Verif.Bridge.rosenPath_pos s.wi s.pi h.vi h.biasI h.normI).ne'
  have h4 := (Verif.Bridge.rosenPath_pos s.wj s.pj h.vj h.biasJ h.normJ).ne'
  generalize Real.exp _ = A
  generalize Real.exp _ = B
  field_simp

/-- **C86 (ratio of transitions).**  For each set of trial positions, the transitions between two states in the
Boltzmann distribution are in the ratio of the Boltzmann factors of the atoms that are not regrown; also
if only one of the states allows the choice of the places. -/
theorem C86_ratio (beta κ : ℝ) (len : ℕ) (c : ℕ → ℝ) (o n : Side P) (ho : o.Good beta κ len)
    (hn : n.Good beta κ len) :
    doubleFlow beta c o n * Real.exp (-beta * n.restEnergy)
      = doubleFlow beta c n o * Real.exp (-beta * o.restEnergy) := by
  rcases ho' : o.pick with _ | qo
  · simp [doubleFlow, ho', accept]
  rcases hn' : n.pick with _ | qn
  · simp [doubleFlow, hn', accept]
  have po := ho.pick qo ho'
  have pn := hn.pick qn hn'
  unfold doubleFlow
  rw [grow_side n beta κ len c hn, grow_side o beta κ len c ho, ho', hn']
  simp only [Option.getD_some, accept]
  rw [Verif.Bridge.C85_rosenbluth _ _ ho.vi, Verif.Bridge.C85_rosenbluth _ _ ho.vj,
    Verif.Bridge.C85_rosenbluth _ _ hn.vi, Verif.Bridge.C85_rosenbluth _ _ hn.vj,
    Verif.Bridge.addSequence_eq _ _ ho.vi, Verif.Bridge.addSequence_eq _ _ ho.vj,
    Verif.Bridge.addSequence_eq _ _ hn.vi, Verif.Bridge.addSequence_eq _ _ hn.vj]
  simp only
  have r1 := Verif.Bridge.rosenPath_pos o.wi o.pi ho.vi ho.biasI ho.normI
  have r2 := Verif.Bridge.rosenPath_pos o.wj o.pj ho.vj ho.biasJ ho.normJ
  have r3 := Verif.Bridge.rosenPath_pos n.wi n.pi hn.vi hn.biasI hn.normI
  have r4 := Verif.Bridge.rosenPath_pos n.wj n.pj hn.vj hn.biasJ hn.normJ
  have eo : Real.exp (-beta * o.energy) = Real.exp (-beta * o.restEnergy)
      * Real.exp (-beta * (Verif.Bridge.energyPath o.wj o.pj + Verif.Bridge.energyPath o.wi o.pi)) := by
    rw [← Real.exp_add]; congr 1; unfold Side.energy; ring
  have en : Real.exp (-beta * n.energy) = Real.exp (-beta * n.restEnergy)
      * Real.exp (-beta * (Verif.Bridge.energyPath n.wj n.pj + Verif.Bridge.energyPath n.wi n.pi)) := by
    rw [← Real.exp_add]; congr 1; unfold Side.energy; ring
  rw [eo, en]
  generalize Verif.Bridge.rosenPath o.wi o.pi = Ri at *
  generalize Verif.Bridge.rosenPath o.wj o.pj = Rj at *
  generalize Verif.Bridge.rosenPath n.wi n.pi = Si at *
  generalize Verif.Bridge.rosenPath n.wj n.pj = Sj at *
  have key : qo / (Sj * Si) * min 1 (Sj * Si * qn / (Ri * Rj) / qo)
      = qn / (Rj * Ri) * min 1 (Rj * Ri * qo / (Si * Sj) / qn) := by
    rw [mul_min_of_nonneg _ _ (by positivity), mul_min_of_nonneg _ _ (by positivity), mul_one, mul_one,
      min_comm]
    congr 1 <;> field_simp
  generalize Real.exp (-beta * n.restEnergy) = E0
  generalize Real.exp (-beta * o.restEnergy) = E1
  generalize Real.exp (-beta * (Verif.Bridge.energyPath o.wj o.pj + Verif.Bridge.energyPath o.wi o.pi)) = Eo
  generalize Real.exp (-beta * (Verif.Bridge.energyPath n.wj n.pj + Verif.Bridge.energyPath n.wi n.pi)) = En
  linear_combination (E0 * E1 * Eo * En * o.trials * n.trials
    * (Verif.Bridge.constants c 0 len * c len * κ) ^ 2) * key

/-- **C86 (detailed balance).**  If the energy of the atoms that are not regrown is the same in both states,
as for molecules with the same types of atoms (`C86_rest`), the transitions balance. -/
theorem C86_balance (beta κ : ℝ) (len : ℕ) (c : ℕ → ℝ) (o n : Side P) (ho : o.Good beta κ len)
    (hn : n.Good beta κ len) (hrest : o.restEnergy = n.restEnergy) :
    doubleFlow beta c o n = doubleFlow beta c n o := by
  have h := C86_ratio beta κ len c o n ho hn
  rw [hrest] at h
  exact mul_right_cancel₀ (Real.exp_pos _).ne' h

/-- Transitions that can occur have a positive density. -/
theorem doubleFlow_pos (beta κ : ℝ) (len : ℕ) (c : ℕ → ℝ) (o n : Side P) (ho : o.Good beta κ len)
    (hn : n.Good beta κ len) (hc : ∀ i, 0 < c i) (hκ : 0 < κ) (qo qn : ℝ) (hqo : o.pick = some qo)
    (hqn : n.pick = some qn) (hto : 0 < o.trials) (htn : 0 < n.trials) : 0 < doubleFlow beta c o n := by
  have hcon : ∀ m b, 0 < Verif.Bridge.constants c b m := by
    intro m
    induction m with
    | zero => intro b; exact one_pos
    | succ m ih => intro b; exact mul_pos (hc b) (ih _)
  have po := ho.pick qo hqo
  have pn := hn.pick qn hqn
  have r1 := Verif.Bridge.rosenPath_pos o.wi o.pi ho.vi ho.biasI ho.normI
  have r2 := Verif.Bridge.rosenPath_pos o.wj o.pj ho.vj ho.biasJ ho.normJ
  have r3 := Verif.Bridge.rosenPath_pos n.wi n.pi hn.vi hn.biasI hn.normI
  have r4 := Verif.Bridge.rosenPath_pos n.wj n.pj hn.vj hn.biasJ hn.normJ
  have h1 := hcon len 0
  have h2 := hc len
  unfold doubleFlow
  rw [grow_side n beta κ len c hn, hqo, hqn]
  simp only [Option.getD_some, accept]
  rw [Verif.Bridge.C85_rosenbluth _ _ ho.vi, Verif.Bridge.C85_rosenbluth _ _ ho.vj,
    Verif.Bridge.addSequence_eq _ _ ho.vi, Verif.Bridge.addSequence_eq _ _ ho.vj,
    Verif.Bridge.addSequence_eq _ _ hn.vi, Verif.Bridge.addSequence_eq _ _ hn.vj]
  simp only
  exact mul_pos (by positivity) (lt_min one_pos (by positivity))

/-- **C86 (different molecules, violated).**  If the exchange of ends changes the energy of the atoms that are
not regrown, no transition that occurs balances: the acceptance does not contain that energy. -/
theorem C86_rest_violated (beta κ : ℝ) (len : ℕ) (c : ℕ → ℝ) (o n : Side P) (ho : o.Good beta κ len)
    (hn : n.Good beta κ len) (hb : beta ≠ 0) (hrest : o.restEnergy ≠ n.restEnergy)
    (hf : doubleFlow beta c o n ≠ 0) : doubleFlow beta c o n ≠ doubleFlow beta c n o := by
  intro e
  have h := C86_ratio beta κ len c o n ho hn
  rw [← e] at h
  have h1 := Real.exp_injective (mul_left_cancel₀ hf h)
  exact hrest (mul_left_cancel₀ (neg_ne_zero.2 hb) h1).symm

end Verif.Double
