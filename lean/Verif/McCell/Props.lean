import Verif.McCell.Lemmas

/-!
# C01: a Monte Carlo cell holds exactly the atoms added and not yet deleted

Specification: the set of live atoms, a plain `Finset`, updated by
insertion/erasure.  The property as stated (a full cell refuses a further atom
and never overwrites a live one, after *every* history) is **false** of the
code: `C01_refill_overwrites` and `C01_violated` prove the negation.  The
histories in which the cell never becomes completely full satisfy it:
`C01_cell_history_partial`.
-/

namespace Verif.McCell

/-! ## Specification -/

/-- Abstract effect of an operation on the set of live atoms. -/
def specStep (S : Finset Nat) : Op → Finset Nat
  | .add a => insert a S
  | .del a => S.erase a
  | .clear => ∅

/-- Abstract state after a history. -/
def specRun (ops : List Op) : Finset Nat := ops.foldl specStep ∅

/-- Calls a client may make when the live atoms are `S`: add an absent atom,
delete a present one.  `lim` bounds the number of live atoms. -/
def Allowed (lim : Nat) (S : Finset Nat) : Op → Prop
  | .add a => a ∉ S ∧ S.card < lim
  | .del a => a ∈ S
  | .clear => True

/-- Every call of the history is allowed at the time it is made. -/
def AllowedHist (lim : Nat) : Finset Nat → List Op → Prop
  | _, [] => True
  | S, op :: ops => Allowed lim S op ∧ AllowedHist lim (specStep S op) ops

/-- What a user relies on: the cell enumerates exactly the live atoms, each
once; each live atom's tag is the slot holding it; the count is right; the
code's own validity check passes. -/
structure Faithful (cap : Nat) (s : St) (S : Finset Nat) : Prop where
  nodup : s.cell.list.Nodup
  mem : ∀ a, a ∈ s.cell.list ↔ a ∈ S
  count : s.cell.nAtom = S.card
  tagged : ∀ a ∈ S, ∃ p, p < cap ∧ s.tag a = some p ∧ s.cell.atoms p = some a
  untagged : ∀ a, a ∉ S → s.tag a = none
  valid : ∀ k, s.cell.isValid cap (fun a => (s.tag a).map (fun p => (k, p))) k

/-! ## Lemmas about histories -/

theorem allowedHist_append {lim : Nat} {S : Finset Nat} {xs ys : List Op}
    (h1 : AllowedHist lim S xs) (h2 : AllowedHist lim (xs.foldl specStep S) ys) :
    AllowedHist lim S (xs ++ ys) := by
  induction xs generalizing S with
  | nil => exact h2
  | cons x xs ih => exact ⟨h1.1, ih h1.2 h2⟩

theorem fill_spec (k : Nat) :
    ((List.range k).map Op.add).foldl specStep ∅ = Finset.range k := by
  induction k with
  | zero => rfl
  | succ k ih =>
    rw [List.range_succ, List.map_append, List.foldl_append, ih, Finset.range_add_one]; rfl

theorem fill_allowed (cap k : Nat) (hk : k ≤ cap) :
    AllowedHist cap ∅ ((List.range k).map Op.add) := by
  induction k with
  | zero => trivial
  | succ k ih =>
    rw [List.range_succ, List.map_append]
    refine allowedHist_append (ih (by omega)) ?_
    rw [fill_spec]
    exact ⟨⟨by simp, by simp; omega⟩, trivial⟩

theorem run_append (cap : Nat) (s : St) (xs ys : List Op) :
    run cap s (xs ++ ys) = match run cap s xs with
      | .ok s' => run cap s' ys
      | .throw => .throw
      | .ub => .ub := by
  induction xs generalizing s with
  | nil => rfl
  | cons x xs ih =>
    simp only [List.cons_append, run]
    cases step cap s x <;> simp [ih]

theorem run_append_ok {cap : Nat} {s s' : St} {r : Res St} {xs ys : List Op}
    (h1 : run cap s xs = .ok s') (h2 : run cap s' ys = r) : run cap s (xs ++ ys) = r := by
  rw [run_append, h1]; exact h2

theorem fill_tag0 (cap k : Nat) (hk0 : 0 < k) (_hk : k ≤ cap) {s : St}
    (h : run cap init ((List.range k).map Op.add) = .ok s) : s.tag 0 = some 0 := by
  induction k generalizing s with
  | zero => omega
  | succ k ih =>
    rw [List.range_succ, List.map_append, run_append] at h
    rcases hr : run cap init ((List.range k).map Op.add) with s' | _ | _
    · rw [hr] at h
      simp only [List.map_cons, List.map_nil, run, step] at h
      rcases Nat.eq_zero_or_pos k with h0 | h0
      · subst h0
        simp only [List.range_zero, List.map_nil, run, Res.ok.injEq] at hr
        subst hr
        split at h
        · rename_i s2 hs2
          split at hs2
          · cases hs2
          · rename_i c p hcp
            simp only [Res.ok.injEq] at hs2 h
            subst h; subst hs2
            simp only [Function.update_self]
            unfold Cell.addAtom at hcp
            split at hcp
            · cases hcp
            · simp only [init, Cell.clear] at hcp
              split at hcp <;> [split at hcp; skip] <;>
                (simp only [Option.some.injEq, Prod.mk.injEq] at hcp; rw [← hcp.2])
        · cases h
        · cases h
      · have := ih h0 (by omega) hr
        split at h
        · rename_i s2 hs2
          split at hs2
          · cases hs2
          · simp only [Res.ok.injEq] at hs2 h
            subst h; subst hs2
            simp only
            rw [Function.update_of_ne (by omega)]; exact this
        · cases h
        · cases h
    · rw [hr] at h; cases h
    · rw [hr] at h; cases h

/-! ## Property theorems -/

theorem rel_faithful {cap : Nat} {s : St} {S : Finset Nat} (h : Rel cap s S) :
    Faithful cap s S := by
  constructor
  · exact nodup_list h.inj
  · intro a; rw [← h.toFinset, List.mem_toFinset]
  · exact h.card
  · intro a ha
    obtain ⟨p, hp⟩ := (h.live a).1 ha
    have hat := (h.tag a p).1 hp
    refine ⟨p, ?_, hp, hat⟩
    by_contra hge
    rw [h.inv.above p (by have := h.inv.clear_le; omega)] at hat; cases hat
  · intro a ha
    rcases hta : s.tag a with _ | p
    · rfl
    · exact absurd ((h.live a).2 ⟨p, hta⟩) ha
  · intro k
    refine ⟨?_, h.inv.last, h.inv.count.symm⟩
    intro jp _
    rcases hat : s.cell.atoms jp with _ | a
    · simp only
      by_contra hlt
      exact h.inv.below jp (by omega) hat
    · simp only
      refine ⟨by rw [(h.tag a jp).2 hat]; rfl, ?_⟩
      by_contra hlt
      rw [h.inv.above jp (by omega)] at hat; cases hat

theorem run_rel {cap : Nat} (ops : List Op) {s : St} {S : Finset Nat} (h : Rel cap s S)
    (hops : AllowedHist (cap - 1) S ops) :
    ∃ s', run cap s ops = .ok s' ∧ Rel cap s' (ops.foldl specStep S) := by
  induction ops generalizing s S with
  | nil => exact ⟨s, rfl, h⟩
  | cons op ops ih =>
    obtain ⟨hop, hrest⟩ := hops
    have hstep : ∃ s', step cap s op = .ok s' ∧ Rel cap s' (specStep S op) := by
      cases op with
      | add a => exact rel_add h hop.1 (Or.inl (by have := hop.2; omega))
      | del a => exact rel_del h hop
      | clear => exact ⟨_, rfl, rel_init cap⟩
    obtain ⟨s', hs', hrel⟩ := hstep
    obtain ⟨s'', hs'', hrel'⟩ := ih hrel hrest
    exact ⟨s'', by simp only [run, hs']; exact hs'', hrel'⟩

/-- **C01 (partial).**  For every capacity and every history of allowed calls
in which the cell holds at most `cap - 1` atoms at all times, no call fails and
the final state is faithful to the set of live atoms.  Missing with respect to
the full property: histories in which all `cap` slots become occupied, for
which the property is false (`C01_violated`). -/
theorem C01_cell_history_partial (cap : Nat) (ops : List Op)
    (h : AllowedHist (cap - 1) ∅ ops) :
    ∃ s, run cap init ops = .ok s ∧ Faithful cap s (specRun ops) := by
  obtain ⟨s, hs, hrel⟩ := run_rel ops (rel_init cap) h
  exact ⟨s, hs, rel_faithful hrel⟩

/-- Non-vacuity: a history with holes, refills and a clear, capacity 4. -/
example : AllowedHist (4 - 1) ∅
    [.add 7, .add 8, .add 9, .del 8, .add 5, .del 7, .clear, .add 8] := by
  simp [AllowedHist, Allowed, specStep]

/-- **C01, full cell.**  Whenever a cell faithful to a history is full, a
further add is refused. (Hypothesis reachable: `fill_rel` with `k = cap`.) -/
theorem C01_full_cell_throws {cap : Nat} {s : St} {S : Finset Nat} (h : Rel cap s S)
    (hfull : S.card = cap) (a : Nat) : step cap s (.add a) = .throw := by
  have := add_full h.inv (by rw [h.card, hfull]) a
  simp only [step, this]

/-- Filling an empty cell with the atoms `0, …, k-1` succeeds for every
`k ≤ cap`. -/
theorem fill_rel (cap k : Nat) (hk : k ≤ cap) :
    ∃ s, run cap init ((List.range k).map Op.add) = .ok s ∧ Rel cap s (Finset.range k) ∧
      s.cell.firstEmpty = k ∧ s.cell.firstClear = k := by
  induction k with
  | zero => exact ⟨init, rfl, by simpa using rel_init cap, rfl, rfl⟩
  | succ k ih =>
    obtain ⟨s, hs, hrel, he, hf⟩ := ih (by omega)
    obtain ⟨s', hs', hrel'⟩ := rel_add hrel (a := k) (by simp)
      (by simp only [Finset.card_range, he]; omega)
    refine ⟨s', ?_, ?_, ?_⟩
    · rw [List.range_succ, List.map_append]
      exact run_append_ok hs (by simp only [List.map_cons, List.map_nil, run, hs'])
    · rwa [Finset.range_add_one]
    · simp only [step, Cell.addAtom, he, hf] at hs'
      rw [if_neg (by omega)] at hs'
      split at hs'
      · cases hs'
      · rename_i c p hcp
        simp only [Res.ok.injEq] at hs'
        subst hs'
        split at hcp
        · simp only [if_true, Option.some.injEq, Prod.mk.injEq] at hcp
          rw [← hcp.1]; exact ⟨rfl, rfl⟩
        · simp only [Option.some.injEq, Prod.mk.injEq] at hcp
          rw [← hcp.1]; simp only; omega

/-- **C01, negation (general form).**  In *every* state faithful to live atoms
`S` with exactly one free slot which is not the last slot, adding `a` makes the
cell full, but adding a further atom `b` does not throw: it silently overwrites
`a`, which was never deleted. -/
theorem C01_refill_overwrites {cap : Nat} {s : St} {S : Finset Nat} (h : Rel cap s S)
    (hcard : S.card + 1 = cap) (hhole : s.cell.firstEmpty + 1 < cap) {a b : Nat}
    (ha : a ∉ S) (hb : b ∉ S) (hab : a ≠ b) :
    ∃ s', run cap s [.add a, .add b] = .ok s' ∧ a ∉ s'.cell.list ∧
      (insert b (insert a S)).card = cap + 1 := by
  have hcnt := h.inv.count
  rw [h.card] at hcnt
  have hlt : s.cell.firstEmpty < cap := by omega
  have hother : ∀ j, j < cap → j ≠ s.cell.firstEmpty → s.cell.atoms j ≠ none := by
    intro j hj hne hnone
    have h1 := count_update_some (a := 0) hlt (h.inv.hole hlt)
    have h2 := count_lt_of_none (f := Function.update s.cell.atoms s.cell.firstEmpty (some 0))
      hj (by rw [Function.update_of_ne hne]; exact hnone)
    omega
  have hclear : s.cell.firstClear = cap := by
    have := h.inv.clear_le
    by_contra hne
    exact hother (cap - 1) (by omega) (by omega) (h.inv.above _ (by omega))
  have hnext : nextEmpty cap (Function.update s.cell.atoms s.cell.firstEmpty (some a))
      s.cell.firstEmpty = s.cell.firstEmpty := by
    unfold nextEmpty
    rw [List.find?_eq_none.2]
    intro j hj
    rw [List.mem_range'_1] at hj
    rw [Function.update_of_ne (by omega)]
    have := hother j (by omega) (by omega)
    simp [Option.isNone_iff_eq_none, this]
  have hadd1 : s.cell.addAtom cap a = some
      ({ atoms := Function.update s.cell.atoms s.cell.firstEmpty (some a),
         nAtom := s.cell.nAtom + 1, firstEmpty := s.cell.firstEmpty,
         firstClear := s.cell.firstClear }, s.cell.firstEmpty) := by
    unfold Cell.addAtom
    rw [if_neg (by omega)]
    simp only
    rw [if_pos (by omega), if_neg (by omega), hnext]
  have hnota : ∀ p, s.cell.atoms p ≠ some a := by
    intro p hp
    exact ha ((h.live a).2 ⟨p, (h.tag a p).2 hp⟩)
  obtain ⟨c2, hadd2, hc2⟩ : ∃ c2, Cell.addAtom cap
      { atoms := Function.update s.cell.atoms s.cell.firstEmpty (some a),
        nAtom := s.cell.nAtom + 1, firstEmpty := s.cell.firstEmpty,
        firstClear := s.cell.firstClear } b = some (c2, s.cell.firstEmpty) ∧
      c2.atoms = Function.update s.cell.atoms s.cell.firstEmpty (some b) := by
    unfold Cell.addAtom
    simp only
    rw [if_neg (by omega), if_pos (by omega), if_neg (by omega)]
    exact ⟨_, rfl, by simp only [Function.update_idem]⟩
  refine ⟨_, by simp only [run, step, hadd1, hadd2]; rfl, ?_, ?_⟩
  · intro hmem
    unfold Cell.list at hmem
    obtain ⟨p, _, hp⟩ := List.mem_filterMap.1 hmem
    simp only [hc2] at hp
    by_cases hpe : p = s.cell.firstEmpty
    · subst hpe; simp at hp; exact hab hp.symm
    · rw [Function.update_of_ne hpe] at hp; exact hnota p hp
  · rw [Finset.card_insert_of_notMem (by simp [hab.symm, hb]),
      Finset.card_insert_of_notMem ha]; omega

/-- **C01 is violated** for every capacity of at least two slots (the code has
61): there is a history of allowed calls that fills the cell exactly, after
which one more add, which should throw, succeeds and makes a live atom
disappear. -/
theorem C01_violated (cap : Nat) (hcap : 2 ≤ cap) :
    ∃ (ops : List Op) (a b : Nat), AllowedHist cap ∅ ops ∧ (specRun ops).card = cap ∧
      a ∈ specRun ops ∧ b ∉ specRun ops ∧
      ∃ s, run cap init (ops ++ [.add b]) = .ok s ∧ a ∉ s.cell.list := by
  obtain ⟨s, hs, hrel, he, hf⟩ := fill_rel cap cap le_rfl
  obtain ⟨s1, hs1, hrel1⟩ := rel_del hrel (a := 0) (by simp; omega)
  have hcard1 : ((Finset.range cap).erase 0).card + 1 = cap := by
    rw [Finset.card_erase_of_mem (by simp; omega), Finset.card_range]; omega
  have htag0 : s.tag 0 = some 0 := fill_tag0 cap cap (by omega) le_rfl hs
  have he1 : s1.cell.firstEmpty = 0 := by
    simp only [step, htag0, Res.ok.injEq] at hs1
    rw [← hs1]
    simp only [Cell.deleteAtom, he]
    rw [if_pos (by omega)]
  obtain ⟨s2, hs2, hlost, _⟩ := C01_refill_overwrites hrel1 hcard1 (by omega) (a := cap)
    (b := cap + 1) (by simp) (by simp) (by omega)
  refine ⟨(List.range cap).map Op.add ++ [.del 0, .add cap], cap, cap + 1, ?_, ?_, ?_, ?_,
    s2, ?_, hlost⟩
  · refine allowedHist_append (fill_allowed cap cap le_rfl) ?_
    rw [fill_spec]
    refine ⟨?_, ⟨?_, ?_⟩, trivial⟩
    · show 0 ∈ Finset.range cap
      simp; omega
    · show cap ∉ (Finset.range cap).erase 0
      simp
    · show ((Finset.range cap).erase 0).card < cap
      omega
  · unfold specRun
    rw [List.foldl_append, fill_spec]
    show (insert cap ((Finset.range cap).erase 0)).card = cap
    rw [Finset.card_insert_of_notMem (by simp)]; exact hcard1
  · unfold specRun
    rw [List.foldl_append, fill_spec]
    show cap ∈ insert cap ((Finset.range cap).erase 0)
    simp
  · unfold specRun
    rw [List.foldl_append, fill_spec]
    show cap + 1 ∉ insert cap ((Finset.range cap).erase 0)
    simp
  · rw [List.append_assoc]
    refine run_append_ok hs ?_
    simp only [List.cons_append, List.nil_append]
    rw [show run cap s [.del 0, .add cap, .add (cap + 1)] =
      run cap s1 [.add cap, .add (cap + 1)] from by rw [run, hs1]]
    exact hs2

/-- The compile-time capacity of the code (Cell.h:49) is an instance. -/
example : (2 : Nat) ≤ 61 := by decide

end Verif.McCell
