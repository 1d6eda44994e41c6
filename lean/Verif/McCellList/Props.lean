import Verif.McCellList.Lemmas
import Verif.Boundary.Geo

/-!
# C02, C03, C04: the Monte Carlo cell list

Specification: the set of live atoms with their last registered Cartesian
positions, and geometric boxes of the unit cube of scaled coordinates.
-/

namespace Verif.McCellList

open Verif.Boundary Verif.McCell Verif.Cpp

/-! ## Specification -/

/-- Live atoms and last registered positions. -/
structure Abs where
  S : Finset Nat
  pos : Nat → Vec

/-- Effect of an operation on the abstract state. -/
def Abs.step (A : Abs) : Op → Abs
  | .add a r => ⟨insert a A.S, Function.update A.pos a r⟩
  | .del a => ⟨A.S.erase a, A.pos⟩
  | .move a r => ⟨A.S, Function.update A.pos a r⟩

/-- Abstract state after a history, starting from no atoms. -/
def Abs.run (ops : List Op) : Abs := ops.foldl Abs.step ⟨∅, fun _ _ => 0⟩

/-- Scaled coordinates `u` lie in box number `c` of the regular `n 0 × n 1 × n 2`
subdivision of the unit cube. -/
def InBox (n : IVec) (u : Vec) (c : IVec) : Prop :=
  ∀ i, (c i : ℝ) / n i ≤ u i ∧ u i < ((c i : ℝ) + 1) / n i

/-- No box contains `cap` or more of the atoms. -/
def Roomy (gen : Vec → Vec) (cap : Nat) (n : IVec) (A : Abs) : Prop :=
  ∀ (c : IVec) (T : Finset Nat), T ⊆ A.S → (∀ a ∈ T, InBox n (gen (A.pos a)) c) → T.card < cap

/-- What a client may do: add absent atoms and delete or move present ones, at
positions in the primary cell. -/
def Allowed (gen : Vec → Vec) (A : Abs) : Op → Prop
  | .add a r => a ∉ A.S ∧ InUnit (gen r)
  | .del a => a ∈ A.S
  | .move a r => a ∈ A.S ∧ InUnit (gen r)

/-- Every call of the history is allowed, and no box is ever filled to
capacity. -/
def AllowedHist (gen : Vec → Vec) (cap : Nat) (n : IVec) : Abs → List Op → Prop
  | _, [] => True
  | A, op :: ops => Allowed gen A op ∧ Roomy gen cap n (A.step op) ∧
      AllowedHist gen cap n (A.step op) ops

/-- Each box lists exactly the live atoms whose last registered position lies in
it, each once; the total count is right; the validity check of the code
passes. -/
structure Tracks (gen : Vec → Vec) (cap : Nat) (s : CL) (A : Abs) : Prop where
  nodup : ∀ c, InGrid s.n c → (s.cells (cellIndex s.n (c 0) (c 1) (c 2))).list.Nodup
  mem : ∀ c, InGrid s.n c → ∀ a, a ∈ (s.cells (cellIndex s.n (c 0) (c 1) (c 2))).list ↔
    a ∈ A.S ∧ InBox s.n (gen (A.pos a)) c
  nAtom : s.nAtom = A.S.card
  valid : s.isValid cap A.S.card

/-! ## Auxiliary -/

theorem inBox_iff {n : IVec} (hn : ∀ i, 0 < n i) {u : Vec} {c : IVec} :
    InBox n u c ↔ box n u = c := by
  have hr : ∀ i, (0 : ℝ) < n i := fun i => by exact_mod_cast hn i
  unfold InBox box
  constructor
  · intro h
    funext i
    rw [Int.floor_eq_iff]
    have := h i
    rw [div_le_iff₀ (hr i), lt_div_iff₀ (hr i)] at this
    exact this
  · intro h i
    have := congrFun h i
    rw [Int.floor_eq_iff] at this
    rw [div_le_iff₀ (hr i), lt_div_iff₀ (hr i)]
    exact this

theorem kOf_eq_iff {n : IVec} (hn : ∀ i, 0 < n i) {u : Vec} (hu : InUnit u) {c : IVec}
    (hc : InGrid n c) : kOf n u = cellIndex n (c 0) (c 1) (c 2) ↔ InBox n u c := by
  rw [inBox_iff hn]
  constructor
  · intro h; exact cellIndex_inj (box_inGrid hn hu) hc h
  · rintro rfl; rfl

theorem roomy_inCell {gen : Vec → Vec} {cap : Nat} {n : IVec} {A : Abs} (hn : ∀ i, 0 < n i)
    (h : Roomy gen cap n A) (hu : ∀ a ∈ A.S, InUnit (gen (A.pos a))) {u : Vec} (huu : InUnit u) :
    (inCell n A.S (fun a => gen (A.pos a)) (kOf n u)).card < cap := by
  refine h (box n u) _ (Finset.filter_subset _ _) ?_
  intro a ha
  rw [inCell, Finset.mem_filter] at ha
  exact (kOf_eq_iff hn (hu a ha.1) (box_inGrid hn huu)).1 ha.2

theorem step_rel {gen : Vec → Vec} {cap : Nat} {s : CL} {A : Abs}
    (h : Rel cap s A.S (fun a => gen (A.pos a))) {op : Op} (ha : Allowed gen A op)
    (hr : Roomy gen cap s.n (A.step op)) :
    ∃ s', step gen cap s op = .ok s' ∧ s'.n = s.n ∧
      Rel cap s' (A.step op).S (fun a => gen ((A.step op).pos a)) := by
  cases op with
  | add a r =>
    have hS' : ∀ b ∈ (A.step (.add a r)).S, InUnit (gen ((A.step (.add a r)).pos b)) := by
      intro b hb
      simp only [Abs.step] at hb ⊢
      by_cases hba : b = a
      · subst hba; simpa using ha.2
      · rw [Function.update_of_ne hba]
        exact h.unit b (Finset.mem_of_mem_insert_of_ne hb hba)
    have hcard := roomy_inCell h.npos hr hS' ha.2
    have hfun : (fun b => gen ((A.step (.add a r)).pos b))
        = Function.update (fun b => gen (A.pos b)) a (gen r) := by
      funext b
      simp only [Abs.step]
      by_cases hba : b = a
      · subst hba; simp
      · simp [Function.update_of_ne hba]
    have hroom : (inCell s.n A.S (fun b => gen (A.pos b)) (kOf s.n (gen r))).card + 1 < cap := by
      refine lt_of_le_of_lt ?_ hcard
      have hnot : a ∉ inCell s.n A.S (fun b => gen (A.pos b)) (kOf s.n (gen r)) := by
        intro hm
        exact ha.1 (Finset.mem_filter.1 hm).1
      rw [← Finset.card_insert_of_notMem hnot]
      apply Finset.card_le_card
      intro b hb
      rw [hfun, inCell, Finset.mem_filter]
      rcases Finset.mem_insert.1 hb with rfl | hb
      · exact ⟨Finset.mem_insert_self _ _, by simp⟩
      · have hb' := Finset.mem_filter.1 hb
        have hba : b ≠ a := by rintro rfl; exact ha.1 hb'.1
        exact ⟨Finset.mem_insert_of_mem hb'.1, by rw [Function.update_of_ne hba]; exact hb'.2⟩
    obtain ⟨s', h1, h2, h3⟩ := rel_add h gen ha.1 ha.2 hroom
    exact ⟨s', h1, h2, by rw [hfun]; exact h3⟩
  | del a =>
    obtain ⟨s', h1, h2, h3⟩ := rel_delete h ha
    exact ⟨s', h1, h2, h3⟩
  | move a r =>
    have hfun : (fun b => gen ((A.step (.move a r)).pos b))
        = Function.update (fun b => gen (A.pos b)) a (gen r) := by
      funext b
      simp only [Abs.step]
      by_cases hba : b = a
      · subst hba; simp
      · simp [Function.update_of_ne hba]
    have hS' : ∀ b ∈ (A.step (.move a r)).S, InUnit (gen ((A.step (.move a r)).pos b)) := by
      intro b hb
      simp only [Abs.step] at hb ⊢
      by_cases hba : b = a
      · subst hba; simpa using ha.2
      · rw [Function.update_of_ne hba]
        exact h.unit b hb
    have hcard := roomy_inCell h.npos hr hS' ha.2
    rw [hfun] at hcard
    obtain ⟨s', h1, h2, h3⟩ := rel_move h gen ha.1 ha.2 hcard
    exact ⟨s', h1, h2, by rw [hfun]; exact h3⟩

theorem run_rel {gen : Vec → Vec} {cap : Nat} {s : CL} {A : Abs} {ops : List Op}
    (h : Rel cap s A.S (fun a => gen (A.pos a))) (ha : AllowedHist gen cap s.n A ops) :
    ∃ s', run gen cap s ops = .ok s' ∧ s'.n = s.n ∧
      Rel cap s' (ops.foldl Abs.step A).S (fun a => gen ((ops.foldl Abs.step A).pos a)) := by
  induction ops generalizing s A with
  | nil => exact ⟨s, rfl, rfl, h⟩
  | cons op ops ih =>
    obtain ⟨s1, h1, hn1, hr1⟩ := step_rel h ha.1 ha.2.1
    obtain ⟨s2, h2, hn2, hr2⟩ := ih hr1 (by rw [hn1]; exact ha.2.2)
    refine ⟨s2, ?_, hn2.trans hn1, hr2⟩
    simp only [run, h1]
    exact h2

theorem Rel.tracks {gen : Vec → Vec} {cap : Nat} {s : CL} {A : Abs}
    (h : Rel cap s A.S (fun a => gen (A.pos a))) : Tracks gen cap s A := by
  constructor
  · intro c _; exact h.nodup_list _
  · intro c hc a
    rw [h.mem_list]
    refine and_congr_right fun ha => ?_
    exact kOf_eq_iff h.npos (h.unit a ha) hc
  · exact h.nAtom
  · refine ⟨?_, fun _ => h.nAtom⟩
    intro k hk
    have inv := h.inv k
    refine ⟨?_, inv.last, inv.count.symm⟩
    intro jp hjp
    cases hat : (s.cells k).atoms jp with
    | some a =>
      have ht := (h.tag a k jp).2 hat
      refine ⟨by simp [ht], ?_⟩
      by_contra hlt
      have := inv.above jp (by omega)
      rw [hat] at this; cases this
    | none =>
      by_contra hlt
      exact inv.below jp (by simpa using hlt) hat

/-! ## Theorems -/

/-- **C04.** For every boundary transformation, capacity, box lengths and
cutoff: after every allowed history in which no cell is filled to capacity no
operation has thrown or gone out of bounds, and every atom is listed in exactly
the cell that contains its last registered position. -/
theorem C04_cell_list_tracks (gen : Vec → Vec) (cap : Nat) (lengths : Vec) (cutoff : ℝ)
    (s0 : CL) (hs : setup lengths cutoff = some s0) (ops : List Op)
    (ha : AllowedHist gen cap s0.n ⟨∅, fun _ _ => 0⟩ ops) :
    ∃ s, run gen cap s0 ops = .ok s ∧ s.n = s0.n ∧ Tracks gen cap s (Abs.run ops) := by
  obtain ⟨s, h1, h2, h3⟩ := run_rel (A := ⟨∅, fun _ _ => 0⟩) (rel_setup hs _) ha
  exact ⟨s, h1, h2, h3.tracks⟩

/-- **C04.** Every live atom is in exactly one cell of the grid. -/
theorem C04_unique_cell {gen : Vec → Vec} {cap : Nat} {s : CL} {A : Abs}
    (h : Tracks gen cap s A) (hn : ∀ i, 0 < s.n i) {a : Nat} (ha : a ∈ A.S)
    (hu : InUnit (gen (A.pos a))) :
    ∃! c, InGrid s.n c ∧ a ∈ (s.cells (cellIndex s.n (c 0) (c 1) (c 2))).list := by
  refine ⟨box s.n (gen (A.pos a)), ⟨box_inGrid hn hu, ?_⟩, ?_⟩
  · exact (h.mem _ (box_inGrid hn hu) a).2 ⟨ha, (inBox_iff hn).2 rfl⟩
  · rintro c ⟨hc, hm⟩
    exact ((inBox_iff hn).1 ((h.mem c hc a).1 hm).2).symm

/-- `setup` succeeds for every positive cutoff, and refuses others. -/
theorem setup_isSome (lengths : Vec) (cutoff : ℝ) :
    (∃ s, setup lengths cutoff = some s) ↔ 0 < cutoff := by
  unfold setup
  constructor
  · rintro ⟨s, hs⟩
    by_contra hle
    rw [if_pos (by linarith)] at hs
    cases hs
  · intro h
    rw [if_neg (by linarith)]
    have : ∀ i, 0 < axisCells (lengths i) cutoff := fun i => axisCells_pos _ _
    simp only
    rw [if_neg (by
      have := mul_pos (mul_pos (this 1) (this 2)) (this 0)
      omega)]
    exact ⟨_, rfl⟩

/-- **C03.** After every allowed history, for every query point in the primary
cell, the neighbour array has no duplicates, contains only live atoms, lists the
atoms of the point's own cell first, and never overflows its fixed capacity
`27 * MaxAtomCell`. -/
theorem C03_neighbors_nodup (gen : Vec → Vec) (cap : Nat) (lengths : Vec) (cutoff : ℝ)
    (s0 : CL) (hs : setup lengths cutoff = some s0) (ops : List Op)
    (ha : AllowedHist gen cap s0.n ⟨∅, fun _ _ => 0⟩ ops) (r : Vec) (hr : InUnit (gen r)) :
    ∃ s l, run gen cap s0 ops = .ok s ∧ s.getNeighbors gen r = some l ∧ l.Nodup ∧
      (∀ a ∈ l, a ∈ (Abs.run ops).S) ∧ l.length ≤ 27 * cap := by
  obtain ⟨s, h1, h2, h3⟩ := run_rel (A := ⟨∅, fun _ _ => 0⟩) (rel_setup hs _) ha
  have hn := h3.npos
  have hidx : indexFromGen s.n (gen r) = some (kOf s.n (gen r)) := indexFromGen_eq hn hr
  have hbg := box_inGrid hn hr
  refine ⟨s, (s.cellNeighbors (kOf s.n (gen r))).1, h1, by simp [CL.getNeighbors, hidx], ?_, ?_, ?_⟩
  · unfold CL.cellNeighbors
    simp only
    rw [List.nodup_append]
    refine ⟨h3.nodup_list _, ?_, ?_⟩
    · rw [List.nodup_flatMap]
      refine ⟨fun k _ => h3.nodup_list k, ?_⟩
      refine List.Pairwise.imp ?_ (nodup_otherCells hn hbg)
      intro k k' hne
      rw [Function.onFun, List.disjoint_left]
      intro a h1 h2
      rw [h3.mem_list] at h1 h2
      exact hne (h1.2.symm.trans h2.2)
    · intro a h1 b h2 hab
      subst hab
      obtain ⟨k, hk, h2⟩ := List.mem_flatMap.1 h2
      rw [h3.mem_list] at h1 h2
      have hne : k ≠ kOf s.n (gen r) := by
        unfold otherCells at hk
        have := (List.mem_filter.1 hk).2
        simpa using this
      exact hne (h2.2.symm.trans h1.2)
  · intro a hal
    unfold CL.cellNeighbors at hal
    simp only at hal
    rcases List.mem_append.1 hal with h | h
    · exact ((h3.mem_list _ a).1 h).1
    · obtain ⟨k, _, h⟩ := List.mem_flatMap.1 h
      exact ((h3.mem_list _ a).1 h).1
  · unfold CL.cellNeighbors
    simp only
    rw [List.length_append, List.length_flatMap]
    have hl := length_otherCells_le hn hbg
    have hsum : (List.map (fun jc => (s.cells jc).list.length)
        (otherCells s.n (kOf s.n (gen r)))).sum
        ≤ (otherCells s.n (kOf s.n (gen r))).length * cap := by
      have := List.sum_le_card_nsmul (List.map (fun jc => (s.cells jc).list.length)
        (otherCells s.n (kOf s.n (gen r)))) cap (by
          intro x hx
          obtain ⟨k, _, rfl⟩ := List.mem_map.1 hx
          exact h3.list_length_le k)
      simpa using this
    have h0 := h3.list_length_le (kOf s.n (gen r))
    have : (otherCells s.n (kOf s.n (gen r))).length * cap ≤ 26 * cap :=
      Nat.mul_le_mul_right _ hl
    omega

/-- Completeness for any boundary satisfying `Geo`. -/
theorem neighbors_complete {gen : Vec → Vec} {lengths : Vec} {bravais : Fin 3 → Vec}
    (geo : Geo gen lengths bravais) (cap : Nat) (cutoff : ℝ) (s0 : CL)
    (hs : setup lengths cutoff = some s0) (ops : List Op)
    (ha : AllowedHist gen cap s0.n ⟨∅, fun _ _ => 0⟩ ops) (r : Vec) (hr : InUnit (gen r)) :
    ∃ s l, run gen cap s0 ops = .ok s ∧ s.getNeighbors gen r = some l ∧
      ∀ a ∈ (Abs.run ops).S,
        (∃ k : IVec, normSq (r - (Abs.run ops).pos a + latComb bravais k) < cutoff ^ 2) →
        a ∈ l := by
  have hc : 0 < cutoff := (setup_isSome lengths cutoff).1 ⟨s0, hs⟩
  obtain ⟨s, h1, h2, h3⟩ := run_rel (A := ⟨∅, fun _ _ => 0⟩) (rel_setup hs _) ha
  have hn := h3.npos
  have hidx : indexFromGen s.n (gen r) = some (kOf s.n (gen r)) := indexFromGen_eq hn hr
  have hbg := box_inGrid hn hr
  have hn0 : ∀ i, s.n i = axisCells (lengths i) cutoff := by
    intro i
    rw [h2]
    unfold setup at hs
    split at hs
    · cases hs
    simp only at hs
    split at hs
    · cases hs
    simp only [Option.some.injEq] at hs
    rw [← hs]
  refine ⟨s, (s.cellNeighbors (kOf s.n (gen r))).1, h1, by simp [CL.getNeighbors, hidx], ?_⟩
  rintro a haS ⟨k, hk⟩
  have hua := h3.unit a haS
  have hag := box_inGrid hn hua
  have hvis : ∀ i, box s.n (gen ((Abs.run ops).pos a)) i ∈ visited (s.n i) (box s.n (gen r) i) := by
    intro i
    unfold box
    rw [hn0 i]
    refine adjacent_axis (k := k i) (geo.pos i) hc (hr i) (hua i) ?_
    have hb := geo.bound (r - (Abs.run ops).pos a + latComb bravais k) i
    rw [geo.lin] at hb
    exact lt_of_le_of_lt hb hk
  unfold CL.cellNeighbors
  simp only
  by_cases heq : box s.n (gen ((Abs.run ops).pos a)) = box s.n (gen r)
  · refine List.mem_append_left _ ((h3.mem_list _ a).2 ⟨haS, ?_⟩)
    change cellIndex s.n (box s.n (gen ((Abs.run ops).pos a)) 0)
      (box s.n (gen ((Abs.run ops).pos a)) 1) (box s.n (gen ((Abs.run ops).pos a)) 2) = _
    rw [heq]
    rfl
  · refine List.mem_append_right _ (List.mem_flatMap.2 ⟨kOf s.n (gen ((Abs.run ops).pos a)), ?_,
      (h3.mem_list _ a).2 ⟨haS, rfl⟩⟩)
    exact (mem_otherCells hn hbg hag).2 ⟨heq, hvis⟩

/-- **C02 (orthorhombic, tetragonal and cubic boundaries).**  For every
reachable boundary, every positive cutoff, every allowed history and every query
point in the primary cell, the neighbour query returns every live atom that has
a periodic image closer than the cutoff. -/
theorem C02_neighbors_complete_ortho {b : Ortho} (hb : b.Reach) (cap : Nat) (cutoff : ℝ)
    (s0 : CL) (hs : setup b.lengths cutoff = some s0) (ops : List Op)
    (ha : AllowedHist b.toGen cap s0.n ⟨∅, fun _ _ => 0⟩ ops) (r : Vec)
    (hr : InUnit (b.toGen r)) :
    ∃ s l, run b.toGen cap s0 ops = .ok s ∧ s.getNeighbors b.toGen r = some l ∧
      ∀ a ∈ (Abs.run ops).S,
        (∃ k : IVec, normSq (r - (Abs.run ops).pos a + latComb b.bravais k) < cutoff ^ 2) →
        a ∈ l :=
  neighbors_complete (geo_ortho hb) cap cutoff s0 hs ops ha r hr

/-- **C02 (monoclinic boundary).** -/
theorem C02_neighbors_complete_mono {b : Mono} (hb : b.Reach) (cap : Nat) (cutoff : ℝ)
    (s0 : CL) (hs : setup b.lengths cutoff = some s0) (ops : List Op)
    (ha : AllowedHist b.toGen cap s0.n ⟨∅, fun _ _ => 0⟩ ops) (r : Vec)
    (hr : InUnit (b.toGen r)) :
    ∃ s l, run b.toGen cap s0 ops = .ok s ∧ s.getNeighbors b.toGen r = some l ∧
      ∀ a ∈ (Abs.run ops).S,
        (∃ k : IVec, normSq (r - (Abs.run ops).pos a + latComb b.bravais k) < cutoff ^ 2) →
        a ∈ l :=
  neighbors_complete (geo_mono hb) cap cutoff s0 hs ops ha r hr

/-! ## Non-vacuity -/

/-- Any history that uses fewer than `cap` atoms never fills a cell, for every
grid. -/
theorem roomy_of_few {gen : Vec → Vec} {cap : Nat} {n : IVec} {A : Abs} (h : A.S.card < cap) :
    Roomy gen cap n A :=
  fun _ _ hT _ => lt_of_le_of_lt (Finset.card_le_card hT) h

/-- A history with additions, a move across a cell border and a deletion that
satisfies the hypotheses of C02-C04, for the unit cube and any grid. -/
example (n : IVec) : AllowedHist Ortho.default.toGen 61 n ⟨∅, fun _ _ => 0⟩
    [.add 0 ![1/10, 1/10, 1/10], .add 1 ![9/10, 1/10, 1/2], .move 0 ![1/2, 1/10, 9/10],
      .del 1, .add 2 ![0, 0, 0]] := by
  have hu : ∀ r : Vec, (∀ i, 0 ≤ r i ∧ r i < 1) → InUnit (Ortho.default.toGen r) := by
    intro r h i
    simpa [Ortho.toGen, Ortho.default] using h i
  refine ⟨⟨by simp, hu _ ?_⟩, roomy_of_few (by simp [Abs.step]),
    ⟨by simp [Abs.step], hu _ ?_⟩, roomy_of_few ?_, ⟨by simp [Abs.step], hu _ ?_⟩,
    roomy_of_few ?_, by simp [Allowed, Abs.step], roomy_of_few ?_,
    ⟨by simp [Abs.step], hu _ ?_⟩, roomy_of_few ?_, trivial⟩
  all_goals first
    | (intro i; fin_cases i <;> norm_num)
    | (simp only [Abs.step]; decide)

/-- A query for which the hypothesis of C02 holds through a periodic image. -/
example : ∃ k : IVec, normSq (![1/20, 1/2, 1/2] - ![19/20, 1/2, 1/2]
    + latComb Ortho.default.bravais k) < (1/4) ^ 2 := by
  refine ⟨![1, 0, 0], ?_⟩
  simp [normSq, latComb, Ortho.default, setc]
  norm_num

end Verif.McCellList
