import Verif.DdGroup.Storage
import Mathlib.Data.Fintype.Card
import Mathlib.Data.Finset.Filter
import Mathlib.Data.Fintype.Pi
import Mathlib.Data.Fintype.Prod
import Mathlib.Tactic.FinCases
import Mathlib.Data.Fin.VecNotation

/-!
# C45: resolution of the atoms of a group, and communication plans of groups
-/

set_option autoImplicit false

namespace Verif.DdGroup

open Verif.DdAtomMap (Map W Abs Agrees)

variable {N : Nat} {P : Type}

/-- The stored number of pointers is the number of non-null pointers. -/
def Group.OK [DecidableEq P] (g : Group N P) : Prop :=
  g.nPtr = ((Finset.univ.filter (fun i => g.ptrs i ≠ none)).card : ℤ)

variable [DecidableEq P]

set_option linter.unusedSectionVars false

theorem Group.OK.set {g : Group N P} (h : g.OK) (i : Fin N) (p : P) : (g.setAtomPtr i p).OK := by
  unfold Group.OK Group.setAtomPtr at *
  simp only
  by_cases hi : g.ptrs i = none
  · rw [if_pos hi, h]
    have : Finset.univ.filter (fun k => Function.update g.ptrs i (some p) k ≠ none)
        = insert i (Finset.univ.filter (fun k => g.ptrs k ≠ none)) := by
      ext k
      simp only [Finset.mem_filter, Finset.mem_univ, true_and, Finset.mem_insert]
      by_cases hk : k = i
      · subst hk; simp
      · rw [Function.update_of_ne hk]; simp [hk]
    rw [this, Finset.card_insert_of_notMem (by simp [hi])]
    push_cast; ring
  · rw [if_neg hi, h]
    congr 2
    ext k
    simp only [Finset.mem_filter, Finset.mem_univ, true_and]
    by_cases hk : k = i
    · subst hk; simp [hi]
    · rw [Function.update_of_ne hk]

theorem Group.OK.clear {g : Group N P} (h : g.OK) (i : Fin N) : (g.clearAtomPtr i).OK := by
  unfold Group.OK Group.clearAtomPtr at *
  by_cases hi : g.ptrs i = none
  · rw [if_neg (by simpa using hi)]; exact h
  · rw [if_pos hi]
    simp only
    rw [h]
    have : Finset.univ.filter (fun k => g.ptrs k ≠ none)
        = insert i (Finset.univ.filter (fun k => Function.update g.ptrs i none k ≠ none)) := by
      ext k
      simp only [Finset.mem_filter, Finset.mem_univ, true_and, Finset.mem_insert]
      by_cases hk : k = i
      · subst hk; simp [hi]
      · rw [Function.update_of_ne hk]; simp [hk]
    rw [this, Finset.card_insert_of_notMem (by simp)]
    push_cast; ring

theorem clear_ptrs (g : Group N P) (i : Fin N) :
    (g.clearAtomPtr i).ptrs = Function.update g.ptrs i none := by
  unfold Group.clearAtomPtr
  by_cases hi : g.ptrs i = none
  · rw [if_neg (by simpa using hi)]
    funext k
    by_cases hk : k = i
    · subst hk; simp [hi]
    · rw [Function.update_of_ne hk]
  · rw [if_pos hi]

theorem clear_ids (g : Group N P) (i : Fin N) : (g.clearAtomPtr i).atomIds = g.atomIds := by
  unfold Group.clearAtomPtr; split <;> rfl

theorem clear_ghost (g : Group N P) (i : Fin N) : (g.clearAtomPtr i).ghost = g.ghost := by
  unfold Group.clearAtomPtr; split <;> rfl

/-- General statement on the two search loops, over any list of distinct
positions; `keep` tells which pointers are kept. -/
theorem find_fold (m : Map P) (F : Group N P × ℤ → Fin N → Group N P × ℤ)
    (val : Group N P → Fin N → Option P)
    (hF : ∀ s i, (F s i).1.atomIds = s.1.atomIds ∧ (F s i).1.ghost = s.1.ghost ∧
      (F s i).1.ptrs = Function.update s.1.ptrs i (val s.1 i) ∧
      (F s i).2 = s.2 + (if val s.1 i = none then 0 else 1) ∧ (s.1.OK → (F s i).1.OK))
    (hval : ∀ (g h : Group N P) (i : Fin N), g.atomIds = h.atomIds → g.ptrs i = h.ptrs i →
      val g i = val h i)
    (l : List (Fin N)) (hl : l.Nodup) (s : Group N P × ℤ) :
    (l.foldl F s).1.atomIds = s.1.atomIds ∧ (l.foldl F s).1.ghost = s.1.ghost ∧
    (∀ k, (l.foldl F s).1.ptrs k = if k ∈ l then val s.1 k else s.1.ptrs k) ∧
    (l.foldl F s).2 = s.2 + ((l.toFinset.filter (fun i => val s.1 i ≠ none)).card : ℤ) ∧
    (s.1.OK → (l.foldl F s).1.OK) := by
  induction l generalizing s with
  | nil => simp
  | cons i l ih =>
    rw [List.nodup_cons] at hl
    obtain ⟨f1, f2, f3, f4, f5⟩ := hF s i
    obtain ⟨r1, r2, r3, r4, r5⟩ := ih hl.2 (F s i)
    simp only [List.foldl_cons]
    have hv : ∀ k, k ≠ i → val (F s i).1 k = val s.1 k := by
      intro k hk
      exact hval _ _ k f1 (by rw [f3, Function.update_of_ne hk])
    refine ⟨r1.trans f1, r2.trans f2, ?_, ?_, fun h => r5 (f5 h)⟩
    · intro k
      rw [r3, f3]
      by_cases hk : k = i
      · subst hk
        rw [if_neg hl.1, if_pos (by simp)]
        simp
      · rw [Function.update_of_ne hk, hv k hk]
        simp [hk]
    · rw [r4, f4, List.toFinset_cons, Finset.filter_insert]
      have e : l.toFinset.filter (fun k => val (F s i).1 k ≠ none)
          = l.toFinset.filter (fun k => val s.1 k ≠ none) := by
        apply Finset.filter_congr
        intro k hk
        rw [hv k (by rintro rfl; exact hl.1 (List.mem_toFinset.1 hk))]
      rw [e]
      by_cases hn : val s.1 i = none
      · rw [if_pos hn, if_neg (by simpa using hn)]; ring
      · rw [if_neg hn, if_pos hn, Finset.card_insert_of_notMem]
        · push_cast; ring
        · intro h
          exact hl.1 (List.mem_toFinset.1 (Finset.mem_filter.1 h).1)

theorem toFinset_finRange : (List.finRange N).toFinset = Finset.univ := by
  ext i; simp

theorem findLocal_spec (m : Map P) (g : Group N P) :
    let r := findGroupLocalAtoms m g
    r.1.atomIds = g.atomIds ∧ r.1.ghost = g.ghost ∧ (∀ i, r.1.ptrs i = m.ptrs (g.atomIds i)) ∧
    r.2 = ((Finset.univ.filter (fun i => m.ptrs (g.atomIds i) ≠ none)).card : ℤ) ∧
    (g.OK → r.1.OK) := by
  obtain ⟨h1, h2, h3, h4, h5⟩ := find_fold (N := N) m (findLocalStep m)
    (fun g i => m.ptrs (g.atomIds i)) (by
      intro s i
      unfold findLocalStep
      cases hp : m.ptrs (s.1.atomIds i) with
      | none =>
        refine ⟨clear_ids _ _, clear_ghost _ _, ?_, by simp, fun h => h.clear i⟩
        simp only
        rw [clear_ptrs]
      | some p =>
        refine ⟨rfl, rfl, ?_, by simp, fun h => h.set i p⟩
        simp only [Group.setAtomPtr])
    (by intro g h i e _; simp only [e]) (List.finRange N) (List.nodup_finRange N) (g, 0)
  rw [toFinset_finRange] at h4
  refine ⟨h1, h2, fun i => (h3 i).trans (by simp), h4.trans (by simp), h5⟩

theorem findGhost_spec (m : Map P) (g : Group N P) :
    let r := findGroupGhostAtoms m g
    r.1.atomIds = g.atomIds ∧ r.1.ghost = g.ghost ∧
    (∀ i, r.1.ptrs i = if g.ptrs i ≠ none then g.ptrs i else m.ptrs (g.atomIds i)) ∧
    r.2 = ((Finset.univ.filter (fun i => (if g.ptrs i ≠ none then g.ptrs i
      else m.ptrs (g.atomIds i)) ≠ none)).card : ℤ) ∧
    (g.OK → r.1.OK) := by
  obtain ⟨h1, h2, h3, h4, h5⟩ := find_fold (N := N) m (findGhostStep m)
    (fun g i => if g.ptrs i ≠ none then g.ptrs i else m.ptrs (g.atomIds i)) (by
      intro s i
      unfold findGhostStep
      by_cases hn : s.1.ptrs i = none
      · simp only [hn, ne_eq, not_true_eq_false, if_false]
        cases hp : m.ptrs (s.1.atomIds i) with
        | none =>
          refine ⟨clear_ids _ _, clear_ghost _ _, ?_, by simp, fun h => h.clear i⟩
          simp only
          rw [clear_ptrs]
        | some p =>
          refine ⟨rfl, rfl, ?_, by simp, fun h => h.set i p⟩
          simp only [Group.setAtomPtr]
      · simp only [hn, ne_eq, not_false_eq_true, if_true]
        refine ⟨trivial, trivial, ?_, by simp, fun h => h⟩
        funext k
        by_cases hk : k = i
        · subst hk; simp
        · rw [Function.update_of_ne hk])
    (by intro g h i e e'; simp only [e, e']) (List.finRange N) (List.nodup_finRange N) (g, 0)
  rw [toFinset_finRange] at h4
  refine ⟨h1, h2, fun i => (h3 i).trans (by simp), h4.trans (by simp), h5⟩

/-! ## Resolution of atoms -/

/-- **C45, local atoms.** For a map that answers lookups correctly (C07) and holds no
ghosts, the search sets exactly the pointers of those atoms of the group that are
present, and returns their number, which is also the stored number of pointers.
Whatever the pointers were before, none survives. -/
theorem C45_find_local {cap : ℤ} {m : Map P} {ids : P → ℤ} {L : Finset P}
    (hm : Agrees cap ⟨m, ids⟩ ⟨L, ∅, ids⟩) (g : Group N P) (hg : g.OK) :
    let r := findGroupLocalAtoms m g
    r.1.OK ∧ r.1.atomIds = g.atomIds ∧
    (∀ i p, r.1.ptrs i = some p ↔ p ∈ L ∧ ids p = g.atomIds i) ∧
    r.2 = r.1.nPtr ∧
    r.2 = ((Finset.univ.filter (fun i => ∃ p ∈ L, ids p = g.atomIds i)).card : ℤ) := by
  intro r
  obtain ⟨h1, h2, h3, h4, h5⟩ := findLocal_spec m g
  have hp : ∀ i p, m.ptrs (g.atomIds i) = some p ↔ p ∈ L ∧ ids p = g.atomIds i := by
    intro i p
    constructor
    · intro hi
      by_cases hL : ∃ q ∈ L, ids q = g.atomIds i
      · obtain ⟨q, hq, e⟩ := hL
        have := hm.local_ q hq
        simp only at this
        rw [e] at this
        have h' : some q = some p := this.symm.trans hi
        cases h'
        exact ⟨hq, e⟩
      · have := hm.none_ (g.atomIds i) (fun q hq e => hL ⟨q, hq, e⟩) (by simp)
        have h' : none = some p := this.symm.trans hi
        cases h'
    · rintro ⟨hpL, e⟩
      have := hm.local_ p hpL
      simp only at this
      rw [e] at this
      exact this
  have hn : ∀ i, m.ptrs (g.atomIds i) ≠ none ↔ ∃ p ∈ L, ids p = g.atomIds i := by
    intro i
    rw [Option.ne_none_iff_exists']
    exact exists_congr fun p => hp i p
  refine ⟨h5 hg, h1, fun i p => by rw [h3]; exact hp i p, ?_, ?_⟩
  · have := h5 hg
    unfold Group.OK at this
    rw [this, h4]
    congr 2
    apply Finset.filter_congr
    intro i _
    rw [h3]
  · rw [h4]
    congr 2
    ext i
    simp only [Finset.mem_filter, Finset.mem_univ, true_and, hn]

/-- **C45, ghosts.** When the pointers of the local atoms are set, the search keeps
them, sets every other pointer to a ghost with the wanted id if there is one, and
to null otherwise; the returned number is the number of atoms of the group that are
present, local or ghost, and equals the stored number of pointers; and
`findGhosts` throws iff some atom of the group is absent. -/
theorem C45_find_ghosts {cap : ℤ} {m : Map P} {ids : P → ℤ} {L G : Finset P}
    (hm : Agrees cap ⟨m, ids⟩ ⟨L, G, ids⟩) (g : Group N P) (hg : g.OK)
    (hl : ∀ i p, g.ptrs i = some p ↔ p ∈ L ∧ ids p = g.atomIds i) :
    let r := findGroupGhostAtoms m g
    r.1.OK ∧ r.1.atomIds = g.atomIds ∧
    (∀ i p, p ∈ L → ids p = g.atomIds i → r.1.ptrs i = some p) ∧
    (∀ i, (∀ p ∈ L, ids p ≠ g.atomIds i) → (∃ p ∈ G, ids p = g.atomIds i) →
      ∃ q ∈ G, ids q = g.atomIds i ∧ r.1.ptrs i = some q) ∧
    (∀ i, (∀ p ∈ L ∪ G, ids p ≠ g.atomIds i) → r.1.ptrs i = none) ∧
    r.2 = r.1.nPtr ∧
    r.2 = ((Finset.univ.filter (fun i => ∃ p ∈ L ∪ G, ids p = g.atomIds i)).card : ℤ) ∧
    (findGhosts m g = none ↔ ∃ i, ∀ p ∈ L ∪ G, ids p ≠ g.atomIds i) := by
  intro r
  obtain ⟨h1, h2, h3, h4, h5⟩ := findGhost_spec m g
  have hnl : ∀ i, (∀ p ∈ L, ids p ≠ g.atomIds i) → g.ptrs i = none := by
    intro i hi
    cases hp : g.ptrs i with
    | none => rfl
    | some p => exact absurd ((hl i p).1 hp).2 (hi p ((hl i p).1 hp).1)
  have k1 : ∀ i p, p ∈ L → ids p = g.atomIds i → r.1.ptrs i = some p := by
    intro i p hp e
    have := (hl i p).2 ⟨hp, e⟩
    rw [h3, this]; simp
  have k2 : ∀ i, (∀ p ∈ L, ids p ≠ g.atomIds i) → (∃ p ∈ G, ids p = g.atomIds i) →
      ∃ q ∈ G, ids q = g.atomIds i ∧ r.1.ptrs i = some q := by
    intro i hi hgi
    obtain ⟨q, hq, e, hf⟩ := hm.ghost (g.atomIds i) hi hgi
    refine ⟨q, hq, e, ?_⟩
    rw [h3, hnl i hi]
    exact hf
  have k3 : ∀ i, (∀ p ∈ L ∪ G, ids p ≠ g.atomIds i) → r.1.ptrs i = none := by
    intro i hi
    have hi1 : ∀ p ∈ L, ids p ≠ g.atomIds i := fun p hp => hi p (Finset.mem_union_left _ hp)
    rw [h3, hnl i hi1]
    exact hm.none_ _ hi1 (fun p hp => hi p (Finset.mem_union_right _ hp))
  have hn : ∀ i, r.1.ptrs i ≠ none ↔ ∃ p ∈ L ∪ G, ids p = g.atomIds i := by
    intro i
    constructor
    · intro h
      by_contra hc
      push Not at hc
      exact h (k3 i hc)
    · rintro ⟨p, hp, e⟩
      rcases Finset.mem_union.1 hp with hp | hp
      · rw [k1 i p hp e]; simp
      · by_cases hL : ∃ q ∈ L, ids q = g.atomIds i
        · obtain ⟨q, hq, e'⟩ := hL
          rw [k1 i q hq e']; simp
        · push Not at hL
          obtain ⟨q, _, _, h'⟩ := k2 i hL ⟨p, hp, e⟩
          rw [h']; simp
  have hok := h5 hg
  have hcount : r.2 = ((Finset.univ.filter (fun i => ∃ p ∈ L ∪ G, ids p = g.atomIds i)).card : ℤ) := by
    rw [h4]
    congr 2
    ext i
    simp only [Finset.mem_filter, Finset.mem_univ, true_and]
    rw [← h3, hn]
  have hptr : r.2 = r.1.nPtr := by
    have := hok
    unfold Group.OK at this
    rw [this, h4]
    congr 2
    apply Finset.filter_congr
    intro i _
    rw [h3]
  refine ⟨hok, h1, k1, k2, k3, hptr, hcount, ?_⟩
  have hfull : ∀ (q : Fin N → Prop) [DecidablePred q],
      ((Finset.univ.filter q).card : ℤ) < N ↔ ∃ i, ¬ q i := by
    intro q _
    have hle : (Finset.univ.filter q).card ≤ N := by
      have := Finset.card_filter_le (Finset.univ : Finset (Fin N)) q
      simpa using this
    constructor
    · intro hlt
      by_contra hc
      push Not at hc
      rw [Finset.filter_true_of_mem (fun i _ => hc i)] at hlt
      simp at hlt
    · rintro ⟨i, hi⟩
      have : (Finset.univ.filter q).card < (Finset.univ : Finset (Fin N)).card := by
        apply Finset.card_lt_card
        refine ⟨Finset.filter_subset _ _, fun h => hi ?_⟩
        exact (Finset.mem_filter.1 (h (Finset.mem_univ i))).2
      rw [Finset.card_univ, Fintype.card_fin] at this
      exact_mod_cast this
  have hr : findGroupGhostAtoms m g = r := rfl
  unfold findGhosts
  simp only [hr]
  have hlt : r.2 < N ↔ ∃ i, ∀ p ∈ L ∪ G, ids p ≠ g.atomIds i := by
    rw [hcount, hfull]
    refine exists_congr fun i => ?_
    push Not
    rfl
  by_cases hc : g.nPtr < N
  · rw [if_pos hc, ← hlt]
    by_cases hc2 : r.2 < N
    · simp [hc2]
    · simp [hc2]
  · rw [if_neg hc]
    constructor
    · intro h; cases h
    · intro h
      exfalso
      apply hc
      unfold Group.OK at hg
      rw [hg, hfull]
      obtain ⟨i, hi⟩ := h
      refine ⟨i, fun hne => hne (hnl i (fun p hp => hi p (Finset.mem_union_left _ hp)))⟩

/-! ## Groups that span a boundary -/

section span

variable {R : Type} [LinearOrder R]

theorem nOutIn_pos (v : AtomView P R) (inner outer : Dir → R) (d : Dir) (g : Group N P) :
    (0 < (nOutIn v inner outer d g).1 ↔ ∃ k p, g.ptrs k = some p ∧ countsOut v inner d p = true) ∧
    (0 < (nOutIn v inner outer d g).2 ↔ ∃ k p, g.ptrs k = some p ∧ countsIn v outer d p = true) := by
  unfold nOutIn
  have key : ∀ (l : List (Fin N)) (c : Nat × Nat),
      let r := l.foldl (fun c k => match g.ptrs k with
        | none => c
        | some p => (if countsOut v inner d p then c.1 + 1 else c.1,
                     if countsIn v outer d p then c.2 + 1 else c.2)) c
      (0 < r.1 ↔ 0 < c.1 ∨ ∃ k ∈ l, ∃ p, g.ptrs k = some p ∧ countsOut v inner d p = true) ∧
      (0 < r.2 ↔ 0 < c.2 ∨ ∃ k ∈ l, ∃ p, g.ptrs k = some p ∧ countsIn v outer d p = true) := by
    intro l
    induction l with
    | nil => intro c; simp
    | cons k l ih =>
      intro c
      simp only [List.foldl_cons, List.mem_cons, exists_eq_or_imp]
      cases hp : g.ptrs k with
      | none =>
        obtain ⟨h1, h2⟩ := ih c
        simp only at h1 h2 ⊢
        rw [h1, h2]
        simp
      | some p =>
        obtain ⟨h1, h2⟩ := ih (if countsOut v inner d p then c.1 + 1 else c.1,
                     if countsIn v outer d p then c.2 + 1 else c.2)
        simp only at h1 h2 ⊢
        rw [h1, h2]
        constructor
        · by_cases hc : countsOut v inner d p = true <;> simp [hc]
        · by_cases hc : countsIn v outer d p = true <;> simp [hc]
  obtain ⟨h1, h2⟩ := key (List.finRange N) (0, 0)
  exact ⟨h1.trans (by simp), h2.trans (by simp)⟩

theorem clear_ghosts_fold (isGhost : P → Bool) (l : List (Fin N)) (hl : l.Nodup) (g : Group N P) :
    let r := l.foldl (fun h k => match h.ptrs k with
      | some p => if isGhost p then h.clearAtomPtr k else h
      | none => h) g
    r.ghost = g.ghost ∧ r.atomIds = g.atomIds ∧ (g.OK → r.OK) ∧
    ∀ k, r.ptrs k = if k ∈ l then (g.ptrs k).filter (fun p => !isGhost p) else g.ptrs k := by
  induction l generalizing g with
  | nil => simp
  | cons a l ih =>
    rw [List.nodup_cons] at hl
    simp only [List.foldl_cons]
    have hstep : ∀ h : Group N P, h = (match g.ptrs a with
        | some p => if isGhost p then g.clearAtomPtr a else g
        | none => g) →
        h.ghost = g.ghost ∧ h.atomIds = g.atomIds ∧ (g.OK → h.OK) ∧
        h.ptrs = Function.update g.ptrs a ((g.ptrs a).filter (fun p => !isGhost p)) := by
      intro h hh
      cases hp : g.ptrs a with
      | none =>
        rw [hp] at hh
        simp only at hh
        subst hh
        refine ⟨rfl, rfl, fun h => h, ?_⟩
        funext k
        by_cases hk : k = a
        · subst hk; simp [hp]
        · rw [Function.update_of_ne hk]
      | some p =>
        rw [hp] at hh
        simp only at hh
        by_cases hpg : isGhost p = true
        · rw [if_pos hpg] at hh
          subst hh
          refine ⟨clear_ghost _ _, clear_ids _ _, fun h => h.clear a, ?_⟩
          rw [clear_ptrs]
          simp [Option.filter, hpg]
        · rw [if_neg hpg] at hh
          subst hh
          refine ⟨rfl, rfl, fun h => h, ?_⟩
          funext k
          by_cases hk : k = a
          · subst hk; simp [hp, Option.filter, hpg]
          · rw [Function.update_of_ne hk]
    obtain ⟨s1, s2, s3, s4⟩ := hstep _ rfl
    obtain ⟨r1, r2, r3, r4⟩ := ih hl.2 (match g.ptrs a with
        | some p => if isGhost p then g.clearAtomPtr a else g
        | none => g)
    refine ⟨r1.trans s1, r2.trans s2, fun h => r3 (s3 h), ?_⟩
    intro k
    rw [r4, s4]
    by_cases hk : k = a
    · subst hk
      rw [if_neg hl.1, if_pos (by simp)]
      simp
    · rw [Function.update_of_ne hk]
      simp [hk]

/-- Exact effect of `markSpanningGroups` on a group. -/
theorem markSpanning_spec (v : AtomView P R) (inner outer : Dir → R) (grid : Fin 3 → Bool)
    (g : Group N P) (hg : g.OK) :
    let r := markSpanning v inner outer grid g
    r.OK ∧ r.atomIds = g.atomIds ∧
    (∀ k, r.ptrs k = (g.ptrs k).filter (fun p => !v.isGhost p)) ∧
    (∀ d, r.ghost d = true ↔ grid d.1 = true ∧ ((∃ k, g.ptrs k = none) ∨
      ((∃ k p, g.ptrs k = some p ∧ countsOut v inner d p = true) ∧
       (∃ k p, g.ptrs k = some p ∧ countsIn v outer d p = true)))) := by
  have hcomp : g.nPtr = N ↔ ∀ k, g.ptrs k ≠ none := by
    unfold Group.OK at hg
    rw [hg]
    constructor
    · intro h k hk
      have hlt : (Finset.univ.filter (fun i => g.ptrs i ≠ none)).card
          < (Finset.univ : Finset (Fin N)).card := by
        apply Finset.card_lt_card
        refine ⟨Finset.filter_subset _ _, fun h' => ?_⟩
        exact (Finset.mem_filter.1 (h' (Finset.mem_univ k))).2 hk
      rw [Finset.card_univ, Fintype.card_fin] at hlt
      have : (Finset.univ.filter (fun i => g.ptrs i ≠ none)).card = N := by exact_mod_cast h
      omega
    · intro h
      rw [Finset.filter_true_of_mem (fun i _ => h i)]
      simp
  unfold markSpanning
  simp only
  obtain ⟨r1, r2, r3, r4⟩ := clear_ghosts_fold v.isGhost (List.finRange N) (List.nodup_finRange N)
    ({ g with ghost := fun d => if grid d.1 = true then if g.nPtr = N then
        decide ((nOutIn v inner outer d g).1 > 0 ∧ (nOutIn v inner outer d g).2 > 0) else true
        else false } : Group N P)
  refine ⟨r3 hg, r2, fun k => (r4 k).trans (by simp), ?_⟩
  intro d
  refine (Eq.congr_left (congrFun r1 d)).trans ?_
  simp only
  obtain ⟨n1, n2⟩ := nOutIn_pos v inner outer d g
  by_cases hgr : grid d.1 = true
  · rw [if_pos hgr]
    by_cases hc : g.nPtr = N
    · rw [if_pos hc]
      have hn := hcomp.1 hc
      simp only [gt_iff_lt, n1, n2, decide_eq_true_eq, hgr, true_and]
      constructor
      · intro h; exact .inr h
      · rintro (⟨k, hk⟩ | h)
        · exact absurd hk (hn k)
        · exact h
    · rw [if_neg hc]
      simp only [hgr, true_and, true_iff]
      left
      by_contra hcon
      push Not at hcon
      exact hc (hcomp.2 hcon)
  · rw [if_neg hgr]
    simp [hgr]

/-- Beyond boundary `d`: below the lower bound or above the upper one. -/
def Beyond (bound : Dir → R) (d : Dir) (x : R) : Prop :=
  if d.2 = 0 then x < bound d else bound d < x

/-- **C45, spanning groups.** Suppose the exchange plan of a local atom says that the
atom is beyond the boundary, and the thresholds for ghosts enclose the boundary.
Then a group with one atom beyond a boundary and one atom not beyond it, local or
ghost, is marked for sending in this direction, and so is every group of which an
atom is missing.  All pointers to ghosts are cleared, those to local atoms kept. -/
theorem C45_spanning_marked (v : AtomView P R) (bound inner outer : Dir → R) (grid : Fin 3 → Bool)
    (g : Group N P) (hg : g.OK)
    (hplan : ∀ k p d, g.ptrs k = some p → v.isGhost p = false →
      (v.exchange p d = true ↔ Beyond bound d (v.pos p d.1)))
    (hlo : ∀ i, outer (i, 0) < bound (i, 0) ∧ bound (i, 0) < inner (i, 0))
    (hhi : ∀ i, inner (i, 1) < bound (i, 1) ∧ bound (i, 1) < outer (i, 1))
    (d : Dir) (hgrid : grid d.1 = true)
    (hspan : (∃ k, g.ptrs k = none) ∨ ∃ k p l q, g.ptrs k = some p ∧ g.ptrs l = some q ∧
      Beyond bound d (v.pos p d.1) ∧ ¬ Beyond bound d (v.pos q d.1)) :
    (markSpanning v inner outer grid g).ghost d = true ∧
    (markSpanning v inner outer grid g).OK ∧
    (∀ k p, (markSpanning v inner outer grid g).ptrs k = some p ↔
      g.ptrs k = some p ∧ v.isGhost p = false) := by
  obtain ⟨h1, h2, h3, h4⟩ := markSpanning_spec v inner outer grid g hg
  refine ⟨(h4 d).2 ⟨hgrid, ?_⟩, h1, ?_⟩
  · rcases hspan with h | ⟨k, p, l, q, hp, hq, hbp, hbq⟩
    · exact .inl h
    · right
      obtain ⟨i, j⟩ := d
      refine ⟨⟨k, p, hp, ?_⟩, ⟨l, q, hq, ?_⟩⟩
      · unfold countsOut
        by_cases hgh : v.isGhost p = true
        · rw [if_pos hgh]
          unfold Beyond at hbp
          simp only at hbp ⊢
          by_cases hj : j = 0
          · subst hj
            simp only [if_true] at hbp ⊢
            exact decide_eq_true (hbp.trans (hlo i).2)
          · have hj1 : j = 1 := by omega
            subst hj1
            simp only [Fin.reduceEq, if_false] at hbp ⊢
            exact decide_eq_true ((hhi i).1.trans hbp)
        · rw [if_neg hgh]
          exact (hplan k p (i, j) hp (by simpa using hgh)).2 hbp
      · unfold countsIn
        by_cases hgh : v.isGhost q = true
        · rw [if_pos hgh]
          unfold Beyond at hbq
          simp only at hbq ⊢
          by_cases hj : j = 0
          · subst hj
            simp only [if_true, not_lt] at hbq ⊢
            exact decide_eq_true ((hlo i).1.trans_le hbq)
          · have hj1 : j = 1 := by omega
            subst hj1
            simp only [Fin.reduceEq, if_false, not_lt] at hbq ⊢
            exact decide_eq_true (hbq.trans_lt (hhi i).2)
        · rw [if_neg hgh]
          have := (hplan l q (i, j) hq (by simpa using hgh)).not.2 hbq
          simpa using this
  · intro k p
    rw [h3]
    simp only [Option.filter_eq_some_iff, Bool.not_eq_eq_eq_not, Bool.not_true]

end span

/-! ## Ghost flags of the atoms of incomplete groups -/

/-- `s'` is obtained from `s` by marking exactly the pairs in `T` that were not
marked, and appending each newly marked atom once to the send array. -/
structure Ext (T : Dir → P → Prop) (s s' : Marks P) : Prop where
  flag : ∀ d p, s'.flag p d = true ↔ s.flag p d = true ∨ T d p
  send : ∀ d, ∃ new : List P, s'.send d = s.send d ++ new ∧ new.Nodup ∧
    ∀ p, p ∈ new ↔ T d p ∧ s.flag p d = false

theorem Ext.refl (s : Marks P) {T : Dir → P → Prop} (h : ∀ d p, ¬ T d p) : Ext T s s :=
  ⟨fun d p => by simp [h d p], fun d => ⟨[], by simp, by simp, fun p => by simp [h d p]⟩⟩

theorem Ext.trans {T T' T'' : Dir → P → Prop} {s s' s'' : Marks P} (h : Ext T s s')
    (h' : Ext T' s' s'') (hT : ∀ d p, T'' d p ↔ T d p ∨ T' d p) : Ext T'' s s'' := by
  constructor
  · intro d p
    rw [h'.flag, h.flag, hT]; tauto
  · intro d
    obtain ⟨n, e, hn, hm⟩ := h.send d
    obtain ⟨n', e', hn', hm'⟩ := h'.send d
    have hf : ∀ p, s'.flag p d = false ↔ s.flag p d = false ∧ ¬ T d p := by
      intro p
      have := h.flag d p
      cases h1 : s'.flag p d <;> cases h2 : s.flag p d <;> simp_all
    refine ⟨n ++ n', by rw [e', e, List.append_assoc], ?_, ?_⟩
    · rw [List.nodup_append]
      refine ⟨hn, hn', ?_⟩
      rintro p hp q hq rfl
      rw [hm] at hp
      rw [hm', hf] at hq
      exact hq.2.2 hp.1
    · intro p
      rw [List.mem_append, hm, hm', hf, hT]
      by_cases hTp : T d p <;> tauto

theorem foldl_ext {α : Type} (F : Marks P → α → Marks P) (T : α → Dir → P → Prop)
    (hF : ∀ s a, Ext (T a) s (F s a)) (l : List α) (s : Marks P) :
    Ext (fun d p => ∃ a ∈ l, T a d p) s (l.foldl F s) := by
  induction l generalizing s with
  | nil => exact Ext.refl s (by simp)
  | cons a l ih =>
    exact (hF s a).trans (ih (F s a)) (by intro d p; simp)

theorem markOne_ext (d : Dir) (s : Marks P) (o : Option P) :
    Ext (fun d' p => d' = d ∧ o = some p) s (markOne d s o) := by
  cases o with
  | none => exact Ext.refl s (by simp)
  | some p =>
    unfold markOne
    by_cases hf : s.flag p d = true
    · simp only [hf, Bool.not_true, Bool.false_eq_true, if_false]
      refine ⟨?_, ?_⟩
      · intro d' q
        constructor
        · intro h; exact .inl h
        · rintro (h | ⟨rfl, e⟩)
          · exact h
          · cases e; exact hf
      · intro d'
        refine ⟨[], by simp, by simp, ?_⟩
        intro q
        simp only [List.not_mem_nil, false_iff, not_and, and_imp, Option.some.injEq]
        rintro rfl rfl
        simp [hf]
    · have hf' : s.flag p d = false := by simpa using hf
      simp only [hf', Bool.not_false, if_true]
      refine ⟨?_, ?_⟩
      · intro d' q
        simp only
        by_cases hq : q = p
        · subst hq
          rw [Function.update_self]
          by_cases hd : d' = d
          · subst hd; simp
          · rw [Function.update_of_ne hd]; simp [hd]
        · rw [Function.update_of_ne hq]
          constructor
          · intro h; exact .inl h
          · rintro (h | ⟨-, h⟩)
            · exact h
            · cases h; exact absurd rfl hq
      · intro d'
        by_cases hd : d' = d
        · subst hd
          refine ⟨[p], by simp, by simp, ?_⟩
          intro q
          simp only [List.mem_singleton, Option.some.injEq, true_and]
          constructor
          · rintro rfl; exact ⟨rfl, hf'⟩
          · rintro ⟨rfl, _⟩; rfl
        · refine ⟨[], by simp [Function.update_of_ne hd], by simp, ?_⟩
          intro q; simp [hd]

theorem mem_dirs (d : Dir) : d ∈ dirs := by
  obtain ⟨i, j⟩ := d
  simp [dirs]

/-- **C45, ghosts of incomplete groups.** `markGhosts` sets the flag of an atom in a
direction iff it was set before, or the atom belongs to a group with a missing atom
that is marked in this direction (and the grid has several processors along the
axis); each newly flagged atom is appended once to the send array. -/
theorem C45_mark_ghosts (grid : Fin 3 → Bool) (gs : List (Group N P)) (hgs : ∀ g ∈ gs, g.OK)
    (s : Marks P) :
    (∀ d p, (markGhosts grid s gs).flag p d = true ↔ s.flag p d = true ∨
      (grid d.1 = true ∧ ∃ g ∈ gs, (∃ k, g.ptrs k = none) ∧ g.ghost d = true ∧
        ∃ k, g.ptrs k = some p)) ∧
    (∀ d, ∃ new : List P, (markGhosts grid s gs).send d = s.send d ++ new ∧ new.Nodup ∧
      ∀ p, p ∈ new ↔ (markGhosts grid s gs).flag p d = true ∧ s.flag p d = false) := by
  let T : Group N P → Dir → P → Prop := fun g d p =>
    g.nPtr < N ∧ grid d.1 = true ∧ g.ghost d = true ∧ ∃ k, g.ptrs k = some p
  have hgroup : ∀ (s : Marks P) (g : Group N P), Ext (T g) s (markGroup grid s g) := by
    intro s g
    unfold markGroup
    by_cases hn : g.nPtr < N
    · rw [if_pos hn]
      have := foldl_ext (fun (s : Marks P) (d : Dir) =>
        if grid d.1 && g.ghost d then
          (List.finRange N).foldl (fun s k => markOne d s (g.ptrs k)) s
        else s)
        (fun d d' p => d' = d ∧ grid d.1 = true ∧ g.ghost d = true ∧ ∃ k, g.ptrs k = some p)
        (by
          intro s d
          by_cases hc : (grid d.1 && g.ghost d) = true
          · simp only [hc, if_true]
            have h := foldl_ext (fun (s : Marks P) (k : Fin N) => markOne d s (g.ptrs k))
              (fun k d' p => d' = d ∧ g.ptrs k = some p) (fun s k => markOne_ext d s _)
              (List.finRange N) s
            rw [Bool.and_eq_true] at hc
            have e : (fun d' p => d' = d ∧ grid d.1 = true ∧ g.ghost d = true ∧
                ∃ k, g.ptrs k = some p)
                = (fun (d' : Dir) p => ∃ k ∈ List.finRange N, d' = d ∧ g.ptrs k = some p) := by
              funext d' p
              simp [hc.1, hc.2]
            rw [e]; exact h
          · simp only [hc]
            refine Ext.refl s ?_
            rintro d' p ⟨-, h1, h2, -⟩
            exact hc (by rw [h1, h2]; rfl)) dirs s
      have e : T g = (fun d p => ∃ a ∈ dirs, d = a ∧ grid a.1 = true ∧ g.ghost a = true ∧
          ∃ k, g.ptrs k = some p) := by
        funext d p
        simp only [T, hn, true_and, eq_iff_iff]
        constructor
        · intro h; exact ⟨d, mem_dirs d, rfl, h⟩
        · rintro ⟨a, -, rfl, h⟩; exact h
      rw [e]; exact this
    · rw [if_neg hn]
      exact Ext.refl s (fun d p h => hn h.1)
  have h := foldl_ext (markGroup grid) T hgroup gs s
  have hinc : ∀ g ∈ gs, (g.nPtr < N ↔ ∃ k, g.ptrs k = none) := by
    intro g hg
    have hok := hgs g hg
    unfold Group.OK at hok
    rw [hok]
    constructor
    · intro hlt
      by_contra hc
      push Not at hc
      rw [Finset.filter_true_of_mem (fun i _ => hc i)] at hlt
      simp at hlt
    · rintro ⟨k, hk⟩
      have hlt : (Finset.univ.filter (fun i => g.ptrs i ≠ none)).card
          < (Finset.univ : Finset (Fin N)).card := by
        apply Finset.card_lt_card
        refine ⟨Finset.filter_subset _ _, fun h' => ?_⟩
        exact (Finset.mem_filter.1 (h' (Finset.mem_univ k))).2 hk
      rw [Finset.card_univ, Fintype.card_fin] at hlt
      exact_mod_cast hlt
  have hflag : ∀ d p, (∃ g ∈ gs, T g d p) ↔ (grid d.1 = true ∧ ∃ g ∈ gs,
      (∃ k, g.ptrs k = none) ∧ g.ghost d = true ∧ ∃ k, g.ptrs k = some p) := by
    intro d p
    constructor
    · rintro ⟨g, hg, h1, h2, h3, h4⟩
      exact ⟨h2, g, hg, (hinc g hg).1 h1, h3, h4⟩
    · rintro ⟨h2, g, hg, h1, h3, h4⟩
      exact ⟨g, hg, (hinc g hg).2 h1, h2, h3, h4⟩
  refine ⟨fun d p => ?_, fun d => ?_⟩
  · have := h.flag d p
    rw [hflag] at this
    exact this
  · obtain ⟨new, e, hn, hm⟩ := h.send d
    refine ⟨new, e, hn, fun p => ?_⟩
    rw [hm]
    have hfl : (markGhosts grid s gs).flag p d = true ↔ s.flag p d = true ∨ ∃ g ∈ gs, T g d p :=
      h.flag d p
    constructor
    · rintro ⟨h1, h2⟩; exact ⟨hfl.2 (.inr h1), h2⟩
    · rintro ⟨h1, h2⟩
      refine ⟨(hfl.1 h1).resolve_left (by rw [h2]; simp), h2⟩

/-! ## Non-vacuity -/

/-- A bond with one local atom beyond the lower boundary of axis 0 and one ghost
inside: complete, spanning, and marked. -/
def demoGroup : Group 2 Nat :=
  { ptrs := ![some 0, some 1], atomIds := ![10, 11], nPtr := 2, ghost := fun _ => false }

def demoView : AtomView Nat Int :=
  { pos := fun p _ => if p = 0 then -1 else 1, isGhost := fun p => p = 1
    exchange := fun p d => p = 0 && d.2 = 0 }

example : demoGroup.OK := by unfold Group.OK; decide

example : (markSpanning demoView (fun d => if d.2 = 0 then 2 else 8)
    (fun d => if d.2 = 0 then -2 else 12) (fun _ => true) demoGroup).ghost (0, 0) = true := by
  decide

end Verif.DdGroup
