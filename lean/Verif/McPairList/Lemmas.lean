import Verif.McPairList.Model
import Mathlib.Tactic.Linarith

/-! # Loop invariants of the pair list construction -/

namespace Verif.McPairList

open Verif.Boundary Verif.McCellList

/-- Pair `(i, j)` is to be listed with `i` as the primary atom. -/
def Cond (c : Ctx) (i j : Nat) : Prop :=
  j > i ∧ ¬ c.masked i j ∧ c.dsq (c.pos i) (c.pos j) < c.cutoff * c.cutoff

open Classical in
/-- The secondary atoms of `i` among `nbrs`. -/
noncomputable def sel (c : Ctx) (i : Nat) (nbrs : List Nat) : List Nat :=
  nbrs.filter (fun j => decide (Cond c i j))

/-- Writing a list into consecutive array elements. -/
def write (f : ℤ → Option Nat) (k : ℤ) : List Nat → ℤ → Option Nat
  | [] => f
  | x :: xs => write (Function.update f k (some x)) (k + 1) xs

theorem write_lt (l : List Nat) (f : ℤ → Option Nat) (k m : ℤ) (h : m < k) :
    write f k l m = f m := by
  induction l generalizing f k with
  | nil => rfl
  | cons x xs ih =>
    rw [write, ih _ _ (by omega), Function.update_of_ne (by omega)]

theorem write_get (l : List Nat) (f : ℤ → Option Nat) (k : ℤ) (i : Nat) (hi : i < l.length) :
    write f k l (k + i) = some l[i] := by
  induction l generalizing f k i with
  | nil => simp at hi
  | cons x xs ih =>
    rw [write]
    cases i with
    | zero =>
      rw [write_lt _ _ _ _ (by simp)]
      simp
    | succ i =>
      have := ih (Function.update f k (some x)) (k + 1) i (by simpa using hi)
      rw [show k + ((i + 1 : Nat) : ℤ) = k + 1 + (i : ℤ) by push_cast; ring, this]
      simp

/-- State after recording `i` as a primary atom (first neighbour found). -/
def PL.mark (c : Ctx) (st : PL) (i : Nat) : PL :=
  { st with atom1 := Function.update st.atom1 st.n1 (some i)
            old := Function.update st.old st.n1 (c.pos i) }

/-- State after appending the secondary atoms `l`. -/
def PL.push (st : PL) (l : List Nat) : PL :=
  { st with atom2 := write st.atom2 st.n2 l, n2 := st.n2 + l.length }

theorem inner_true (c : Ctx) (i : Nat) (nbrs : List Nat) (st : PL) (h : st.n2 ≤ c.pairCap) :
    nbrs.foldlM (inner c i) (st, true) =
      if st.n2 + (sel c i nbrs).length ≤ c.pairCap then some (st.push (sel c i nbrs), true)
      else none := by
  induction nbrs generalizing st with
  | nil => simp [sel, PL.push, write, h]
  | cons j nbrs ih =>
    rw [List.foldlM_cons]
    by_cases hc : Cond c i j
    · have hsel : sel c i (j :: nbrs) = j :: sel c i nbrs := by
        unfold sel; rw [List.filter_cons_of_pos (by simpa using hc)]
      rw [hsel]
      by_cases hfull : st.n2 ≥ c.pairCap
      · have hin : inner c i (st, true) j = none := by
          unfold inner
          simp only [if_pos hc.1, if_pos hc.2.1, if_pos hc.2.2, if_pos hfull]
        rw [hin]
        simp only [Option.bind_eq_bind, Option.bind_none]
        rw [if_neg]
        simp only [List.length_cons]
        push_cast
        omega
      · have hin : inner c i (st, true) j = some ({ st with
              atom2 := Function.update st.atom2 st.n2 (some j), n2 := st.n2 + 1 }, true) := by
          unfold inner
          simp only [if_pos hc.1, if_pos hc.2.1, if_pos hc.2.2, if_neg hfull, if_true]
        rw [hin]
        simp only [Option.bind_eq_bind, Option.bind_some]
        rw [ih { st with atom2 := Function.update st.atom2 st.n2 (some j), n2 := st.n2 + 1 }
          (by simp only; omega)]
        simp only [List.length_cons, PL.push, write]
        have e : st.n2 + ((((sel c i nbrs).length + 1 : Nat)) : ℤ)
            = st.n2 + 1 + (sel c i nbrs).length := by push_cast; ring
        simp only [e]
    · have hsel : sel c i (j :: nbrs) = sel c i nbrs := by
        unfold sel; rw [List.filter_cons_of_neg (by simpa using hc)]
      have hin : inner c i (st, true) j = some (st, true) := by
        unfold inner
        simp only
        split
        · rename_i h1
          split
          · rename_i h2
            split
            · rename_i h3; exact absurd ⟨h1, h2, h3⟩ hc
            · rfl
          · rfl
        · rfl
      rw [hin, hsel]
      simp only [Option.bind_eq_bind, Option.bind_some]
      exact ih st h

theorem inner_false (c : Ctx) (i : Nat) (nbrs : List Nat) (st : PL) (h : st.n2 ≤ c.pairCap) :
    nbrs.foldlM (inner c i) (st, false) =
      if st.n2 + (sel c i nbrs).length ≤ c.pairCap then
        some (if sel c i nbrs = [] then (st, false)
          else ((st.mark c i).push (sel c i nbrs), true))
      else none := by
  induction nbrs with
  | nil => simp [sel, h]
  | cons j nbrs ih =>
    rw [List.foldlM_cons]
    by_cases hc : Cond c i j
    · have hsel : sel c i (j :: nbrs) = j :: sel c i nbrs := by
        unfold sel; rw [List.filter_cons_of_pos (by simpa using hc)]
      rw [hsel]
      by_cases hfull : st.n2 ≥ c.pairCap
      · have hin : inner c i (st, false) j = none := by
          unfold inner
          simp only [if_pos hc.1, if_pos hc.2.1, if_pos hc.2.2, if_pos hfull]
        rw [hin]
        simp only [Option.bind_eq_bind, Option.bind_none]
        rw [if_neg]
        simp only [List.length_cons]
        push_cast
        omega
      · have hin : inner c i (st, false) j = some ({ st.mark c i with
              atom2 := Function.update st.atom2 st.n2 (some j), n2 := st.n2 + 1 }, true) := by
          unfold inner
          simp only [if_pos hc.1, if_pos hc.2.1, if_pos hc.2.2, if_neg hfull]
          rfl
        rw [hin]
        simp only [Option.bind_eq_bind, Option.bind_some]
        rw [inner_true c i nbrs _ (by simp only; omega)]
        simp only [List.length_cons, PL.push, PL.mark, write, reduceCtorEq, if_false]
        have e : st.n2 + ((((sel c i nbrs).length + 1 : Nat)) : ℤ)
            = st.n2 + 1 + (sel c i nbrs).length := by push_cast; ring
        simp only [e]
    · have hsel : sel c i (j :: nbrs) = sel c i nbrs := by
        unfold sel; rw [List.filter_cons_of_neg (by simpa using hc)]
      have hin : inner c i (st, false) j = some (st, false) := by
        unfold inner
        simp only
        split
        · rename_i h1
          split
          · rename_i h2
            split
            · rename_i h3; exact absurd ⟨h1, h2, h3⟩ hc
            · rfl
          · rfl
        · rfl
      rw [hin, hsel]
      simp only [Option.bind_eq_bind, Option.bind_some]
      exact ih

/-- Invariant: `D` are the primary atoms processed so far, `P` the pairs found
so far. -/
structure J (c : Ctx) (st : PL) (D : List Nat) (P : List (Nat × Nat)) : Prop where
  n : st.n = D.length
  n2 : st.n2 = P.length
  n1 : 0 ≤ st.n1
  cnt : st.n1 + (c.atomCap - 1 - st.t1) = st.n
  tle : st.t1 ≤ c.atomCap - 1
  le : st.n ≤ c.atomCap
  le2 : st.n2 ≤ c.pairCap
  first0 : st.first 0 = 0
  firstn : st.first st.n1 = st.n2
  mono : ∀ g, 0 ≤ g → g < st.n1 → st.first g < st.first (g + 1)
  snd : ∀ (k : Nat) (h : k < P.length), st.atom2 k = some P[k].2
  fst : ∀ g, 0 ≤ g → g < st.n1 → ∀ (k : Nat) (h : k < P.length), st.first g ≤ k →
    (k : ℤ) < st.first (g + 1) → st.atom1 g = some P[k].1
  recd : ∀ a ∈ D, ∃ ip, (0 ≤ ip ∧ ip < st.n1 ∨ st.t1 < ip ∧ ip ≤ c.atomCap - 1) ∧
    st.atom1 ip = some a ∧ st.old ip = c.pos a
  tot : ∀ ip, (0 ≤ ip ∧ ip < st.n1 ∨ st.t1 < ip ∧ ip ≤ c.atomCap - 1) →
    ∃ a ∈ D, st.atom1 ip = some a ∧ st.old ip = c.pos a

theorem J_reset (c : Ctx) (st : PL) (h1 : 0 ≤ c.atomCap) (h2 : 0 ≤ c.pairCap) :
    J c (st.reset c.atomCap) [] [] := by
  constructor <;> simp [PL.reset, h1, h2] <;> intros <;> omega

theorem J.first_le {c : Ctx} {st : PL} {D P} (h : J c st D P) (g : ℤ) (h0 : 0 ≤ g)
    (h1 : g ≤ st.n1) : st.first g ≤ st.n2 := by
  rw [← h.firstn]
  obtain ⟨m, hm⟩ : ∃ m : Nat, st.n1 = g + m := ⟨(st.n1 - g).toNat, by omega⟩
  clear h1
  have key : ∀ m : Nat, g + m ≤ st.n1 → st.first g ≤ st.first (g + m) := by
    intro m
    induction m with
    | zero => simp
    | succ m ih =>
      intro hle
      have := h.mono (g + m) (by omega) (by push_cast at hle; omega)
      have h2 := ih (by push_cast at hle; omega)
      rw [show g + ((m + 1 : Nat) : ℤ) = g + m + 1 by push_cast; ring]
      omega
  rw [hm]
  exact key m (by omega)

/-- One primary atom. -/
theorem J_outer {c : Ctx} {st : PL} {D : List Nat} {P : List (Nat × Nat)} (h : J c st D P)
    (nbrs : List Nat) (i : Nat) :
    (∀ st', outer c nbrs st i = some st' →
      J c st' (D ++ [i]) (P ++ (sel c i nbrs).map (fun j => (i, j)))) ∧
    (outer c nbrs st i = none →
      (c.atomCap < ((D ++ [i]).length : ℤ)) ∨
      c.pairCap < ((P ++ (sel c i nbrs).map (fun j => (i, j))).length : ℤ)) := by
  have hfold := inner_false c i nbrs { st with n := st.n + 1 } h.le2
  unfold outer
  simp only
  by_cases hn : st.n + 1 > c.atomCap
  · rw [if_pos hn]
    refine ⟨fun _ h' => (by cases h'), fun _ => Or.inl ?_⟩
    have := h.n
    rw [List.length_append, List.length_singleton]; push_cast; omega
  · rw [if_neg hn, hfold]
    by_cases hroom : st.n2 + ((sel c i nbrs).length : ℤ) ≤ c.pairCap
    swap
    · rw [if_neg hroom]
      refine ⟨fun _ h' => (by cases h'), fun _ => Or.inr ?_⟩
      rw [List.length_append, List.length_map]
      push_cast
      rw [← h.n2]
      omega
    rw [if_pos hroom]
    have hcnt := h.cnt
    have hn' := h.n
    have hn2 := h.n2
    have hn1 := h.n1
    have htle := h.tle
    by_cases hsel : sel c i nbrs = []
    · rw [if_pos hsel]
      refine ⟨?_, fun h' => by cases h'⟩
      intro st' hst'
      simp only [Option.some.injEq] at hst'
      subst hst'
      rw [hsel, List.map_nil, List.append_nil]
      constructor
      · simp only [List.length_append, List.length_singleton]; push_cast; omega
      · exact hn2
      · exact hn1
      · simp only; omega
      · simp only; omega
      · simp only; omega
      · exact h.le2
      · exact h.first0
      · exact h.firstn
      · exact h.mono
      · exact h.snd
      · intro g h0 h1 k hk h2 h3
        simp only at h1 ⊢
        rw [Function.update_of_ne (by omega)]
        exact h.fst g h0 h1 k hk h2 h3
      · intro a ha
        rcases List.mem_append.1 ha with ha | ha
        · obtain ⟨ip, hip, h1, h2⟩ := h.recd a ha
          refine ⟨ip, by simp only; omega, ?_, ?_⟩
          · simp only; rw [Function.update_of_ne (by omega)]; exact h1
          · simp only; rw [Function.update_of_ne (by omega)]; exact h2
        · have : a = i := by simpa using ha
          subst this
          exact ⟨st.t1, by simp only; omega, by simp, by simp⟩
      · intro ip hip
        simp only at hip ⊢
        by_cases hit : ip = st.t1
        · subst hit; exact ⟨i, by simp, by simp, by simp⟩
        · obtain ⟨a, ha, h1, h2⟩ := h.tot ip (by omega)
          exact ⟨a, List.mem_append_left _ ha, by rw [Function.update_of_ne hit]; exact h1,
            by rw [Function.update_of_ne hit]; exact h2⟩
    · rw [if_neg hsel]
      refine ⟨?_, fun h' => by cases h'⟩
      intro st' hst'
      simp only [Option.some.injEq] at hst'
      subst hst'
      have hlen : 0 < (sel c i nbrs).length := List.length_pos_iff.2 hsel
      simp only [PL.push, PL.mark]
      constructor
      · simp only [List.length_append, List.length_singleton]; push_cast; omega
      · simp only [List.length_append, List.length_map]; push_cast; omega
      · simp only; omega
      · simp only; omega
      · simp only; omega
      · simp only; omega
      · simp only; omega
      · simp only; rw [Function.update_of_ne (by omega)]; exact h.first0
      · simp
      · intro g h0 h1
        simp only at h1 ⊢
        by_cases hg : g = st.n1
        · subst hg
          rw [Function.update_self, Function.update_of_ne (by omega), h.firstn]
          omega
        · rw [Function.update_of_ne (by omega), Function.update_of_ne (by omega)]
          exact h.mono g h0 (by omega)
      · intro k hk
        simp only at hk ⊢
        rw [List.getElem_append]
        split
        · rename_i hlt
          rw [write_lt _ _ _ _ (by omega)]
          exact h.snd k hlt
        · rename_i hge
          rw [List.length_append, List.length_map] at hk
          have := write_get (sel c i nbrs) st.atom2 st.n2 (k - P.length) (by omega)
          rw [show st.n2 + ((k - P.length : Nat) : ℤ) = (k : ℤ) by omega] at this
          rw [this]
          simp
      · intro g h0 h1 k hk h2 h3
        simp only at h1 h2 h3 ⊢
        rw [List.length_append, List.length_map] at hk
        by_cases hg : g = st.n1
        · subst hg
          rw [Function.update_of_ne (by omega), h.firstn] at h2
          rw [Function.update_self, List.getElem_append]
          split
          · rename_i hlt; omega
          · simp
        · rw [Function.update_of_ne (by omega)] at h2 h3
          rw [Function.update_of_ne hg, List.getElem_append]
          have := h.first_le (g + 1) (by omega) (by omega)
          split
          · rename_i hlt
            exact h.fst g h0 (by omega) k hlt h2 h3
          · omega
      · intro a ha
        simp only
        rcases List.mem_append.1 ha with ha | ha
        · obtain ⟨ip, hip, h1, h2⟩ := h.recd a ha
          refine ⟨ip, by omega, ?_, ?_⟩
          · rw [Function.update_of_ne (by omega)]; exact h1
          · rw [Function.update_of_ne (by omega)]; exact h2
        · have : a = i := by simpa using ha
          subst this
          exact ⟨st.n1, by omega, by simp, by simp⟩
      · intro ip hip
        simp only at hip ⊢
        by_cases hit : ip = st.n1
        · subst hit; exact ⟨i, by simp, by simp, by simp⟩
        · obtain ⟨a, ha, h1, h2⟩ := h.tot ip (by omega)
          exact ⟨a, List.mem_append_left _ ha, by rw [Function.update_of_ne hit]; exact h1,
            by rw [Function.update_of_ne hit]; exact h2⟩

/-- The pairs contributed by primary atoms `own`. -/
noncomputable def cellPairs (c : Ctx) (nbrs own : List Nat) : List (Nat × Nat) :=
  own.flatMap (fun i => (sel c i nbrs).map (fun j => (i, j)))

theorem J_own {c : Ctx} (nbrs own : List Nat) {st : PL} {D : List Nat} {P : List (Nat × Nat)}
    (h : J c st D P) :
    (∀ st', own.foldlM (outer c nbrs) st = some st' →
      J c st' (D ++ own) (P ++ cellPairs c nbrs own)) ∧
    (own.foldlM (outer c nbrs) st = none →
      (c.atomCap < ((D ++ own).length : ℤ)) ∨
      c.pairCap < ((P ++ cellPairs c nbrs own).length : ℤ)) := by
  induction own generalizing st D P with
  | nil =>
    simp only [List.foldlM_nil, cellPairs, List.flatMap_nil, List.append_nil]
    refine ⟨?_, fun h' => (by cases h')⟩
    rintro st' h'
    cases h'
    exact h
  | cons i own ih =>
    rw [List.foldlM_cons]
    obtain ⟨h1, h2⟩ := J_outer h nbrs i
    have e1 : D ++ i :: own = (D ++ [i]) ++ own := by simp
    have e2 : P ++ cellPairs c nbrs (i :: own)
        = (P ++ (sel c i nbrs).map (fun j => (i, j))) ++ cellPairs c nbrs own := by
      simp [cellPairs, List.append_assoc]
    rw [e1, e2]
    cases ho : outer c nbrs st i with
    | none =>
      simp only [Option.bind_eq_bind, Option.bind_none]
      refine ⟨fun _ h' => (by cases h'), fun _ => ?_⟩
      rcases h2 ho with h3 | h3
      · left; rw [List.length_append]; push_cast; omega
      · right; rw [List.length_append]; push_cast; omega
    | some st1 =>
      simp only [Option.bind_eq_bind, Option.bind_some]
      exact ih (h1 st1 ho)

/-- All primary atoms in order. -/
def allAtoms (cl : CL) (m : Nat) : List Nat :=
  (List.range m).flatMap (fun ic : Nat => (cl.cells ic).list)

/-- All pairs in order. -/
noncomputable def allPairs (c : Ctx) (cl : CL) (m : Nat) : List (Nat × Nat) :=
  (List.range m).flatMap (fun ic : Nat => cellPairs c (cl.cellNeighbors ic).1 (cl.cells ic).list)

theorem take_own (cl : CL) (ic : ℤ) :
    (cl.cellNeighbors ic).1.take (cl.cellNeighbors ic).2 = (cl.cells ic).list := by
  simp [CL.cellNeighbors]

theorem J_cells {c : Ctx} {cl : CL} {st : PL} (h : J c st [] []) (m : Nat) :
    (∀ st', (List.range m).foldlM (cellBody c cl) st = some st' →
      J c st' (allAtoms cl m) (allPairs c cl m)) ∧
    ((List.range m).foldlM (cellBody c cl) st = none →
      (c.atomCap < ((allAtoms cl m).length : ℤ)) ∨
      c.pairCap < ((allPairs c cl m).length : ℤ)) := by
  induction m with
  | zero =>
    simp only [List.range_zero, List.foldlM_nil, allAtoms, allPairs, List.flatMap_nil]
    refine ⟨?_, fun h' => (by cases h')⟩
    rintro st' h'
    cases h'
    exact h
  | succ m ih =>
    have e1 : allAtoms cl (m + 1) = allAtoms cl m ++ (cl.cells m).list := by
      simp [allAtoms, List.range_succ]
    have e2 : allPairs c cl (m + 1) = allPairs c cl m ++
        cellPairs c (cl.cellNeighbors m).1 (cl.cells m).list := by
      simp [allPairs, List.range_succ]
    rw [List.range_succ, List.foldlM_append, e1, e2]
    cases ho : (List.range m).foldlM (cellBody c cl) st with
    | none =>
      simp only [Option.bind_eq_bind, Option.bind_none]
      refine ⟨fun _ h' => (by cases h'), fun _ => ?_⟩
      rcases ih.2 ho with h3 | h3
      · left; rw [List.length_append]; push_cast; omega
      · right; rw [List.length_append]; push_cast; omega
    | some st1 =>
      simp only [Option.bind_eq_bind, Option.bind_some, List.foldlM_cons, List.foldlM_nil]
      have hb : ∀ x : Option PL, (x.bind fun s => pure s) = x := by
        intro x; cases x <;> rfl
      rw [hb]
      have hj := J_own (cl.cellNeighbors m).1 (cl.cells m).list (ih.1 st1 ho)
      unfold cellBody
      simp only [take_own]
      exact hj

/-- Iteration yields the recorded pairs in order. -/
theorem J.iter_eq {c : Ctx} {st : PL} {D : List Nat} {P : List (Nat × Nat)} (h : J c st D P)
    (f : Nat) (a1 : ℤ) (a2 : Nat) (hf : a2 + f = P.length) (h0 : 0 ≤ a1)
    (hin : f ≠ 0 → a1 < st.n1 ∧ st.first a1 ≤ a2 ∧ (a2 : ℤ) < st.first (a1 + 1)) :
    st.iter f a1 a2 = (P.drop a2).map (fun x => (some x.1, some x.2)) := by
  induction f generalizing a1 a2 with
  | zero =>
    rw [PL.iter, List.drop_eq_nil_of_le (by omega)]; rfl
  | succ f ih =>
    obtain ⟨h1, h2, h3⟩ := hin (by omega)
    have hlt : a2 < P.length := by omega
    rw [PL.iter, List.drop_eq_getElem_cons hlt, List.map_cons, h.snd a2 hlt,
      h.fst a1 h0 h1 a2 hlt h2 h3]
    congr 1
    have hcast : (a2 : ℤ) + 1 = ((a2 + 1 : Nat) : ℤ) := by push_cast; ring
    rw [hcast]
    apply ih
    · omega
    · split <;> omega
    · intro hf0
      split
      · rename_i heq
        have hlt1 : a1 + 1 < st.n1 := by
          by_contra hge
          have : a1 + 1 = st.n1 := by omega
          rw [this, h.firstn, h.n2] at heq
          omega
        have := h.mono (a1 + 1) (by omega) hlt1
        omega
      · rename_i hne
        omega

theorem J.pairs_eq {c : Ctx} {st : PL} {D : List Nat} {P : List (Nat × Nat)} (h : J c st D P) :
    st.pairs = P.map (fun x => (some x.1, some x.2)) := by
  unfold PL.pairs
  have hn2 := h.n2
  have hlen : st.n2.toNat = P.length := by omega
  rw [hlen]
  have := h.iter_eq P.length 0 0 (by omega) le_rfl (by
    intro hne
    have h0 := h.first0
    have : 0 < st.n1 := by
      rcases lt_or_eq_of_le h.n1 with hlt | heq
      · exact hlt
      · have := h.firstn
        rw [← heq, h0] at this
        omega
    have hm := h.mono 0 le_rfl this
    rw [h0] at hm
    refine ⟨this, by simp [h0], by simpa using hm⟩)
  simpa using this

end Verif.McPairList
