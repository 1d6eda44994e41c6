import Verif.DdCellList.Pairs

/-! # Which pairs are listed by one processor -/

set_option autoImplicit false

namespace Verif.DdCellList

open Verif.Boundary Verif.Cpp Verif.McCellList

variable {A : Type}

/-- The test for pairs, on atoms. -/
def lift (nr : A → A → Bool) : Option A → Option A → Bool
  | some a, some b => nr a b
  | _, _ => false

theorem pairsFrom_map (nr : A → A → Bool) (n : ℕ) (l : List A) :
    pairsFrom (lift nr) n (l.map some) = (pairsFrom nr n l).map fun q => (some q.1, some q.2) := by
  induction n generalizing l with
  | zero => simp [pairsFrom]
  | succ n ih =>
    cases l with
    | nil => simp [pairsFrom]
    | cons a l =>
      simp only [List.map_cons, pairsFrom, ih, List.map_append, List.filter_map, List.map_map]
      congr 1

open Classical in
/-- Atoms of a cell. -/
noncomputable def atomsIn (s : CL A) (pos : A → Vec) (atoms : List A) (k : ℤ) : List A :=
  atoms.filter fun a => decide (s.cellIndexFromPosition (pos a) = some k)

theorem mem_atomsIn {s : CL A} {pos : A → Vec} {atoms : List A} {k : ℤ} {a : A} :
    a ∈ atomsIn s pos atoms k ↔ a ∈ atoms ∧ s.cellIndexFromPosition (pos a) = some k := by
  unfold atomsIn; simp

theorem inCell_tagsOf (s : CL A) (pos : A → Vec) (atoms : List A) (k : ℤ) :
    inCell (tagsOf s (atoms.map fun a => (a, pos a))) k = (atomsIn s pos atoms k).map some := by
  classical
  unfold inCell tagsOf atomsIn
  induction atoms with
  | nil => simp
  | cons a l ih =>
    simp only [List.map_cons, List.flatMap_cons, List.filter_append, List.map_append, ih,
      List.filter_cons]
    cases h : s.cellIndexFromPosition (pos a) with
    | none => simp
    | some j =>
      by_cases e : j = k
      · simp [e]
      · simp [e]

theorem nodup_cells {s : CL A} {pos : A → Vec} {atoms : List A} (h : atoms.Nodup) (ks : List ℤ)
    (hk : ks.Nodup) : (ks.flatMap (atomsIn s pos atoms)).Nodup := by
  rw [List.nodup_flatMap]
  refine ⟨fun k _ => h.filter _, ?_⟩
  refine hk.pairwise_of_forall_ne ?_
  intro j _ k _ hjk a ha hb
  have h1 := (mem_atomsIn.1 ha).2
  have h2 := (mem_atomsIn.1 hb).2
  rw [h1] at h2
  exact hjk (Option.some.inj h2)

/-- Pairs listed, in terms of cell coordinates. -/
def Listed (s : CL A) (cut : Vec) (n : ℤ) (reverse : Bool) (nr : A → A → Bool) (pos : A → Vec)
    (atoms : List A) (a b : A) : Prop :=
  a ∈ atoms ∧ b ∈ atoms ∧ nr a b = true ∧ s.Inside (pos a) ∧ s.Inside (pos b) ∧
  IsLocal s.dim n (s.coord (pos a)) ∧
  ((s.coord (pos a) = s.coord (pos b) ∧ [a, b].Sublist atoms) ∨
    (NearCell (fun i => s.len i / cut i) n (s.coord (pos b) - s.coord (pos a)) ∧
      s.coord (pos a) ≠ s.coord (pos b) ∧
      (0 < off s.dim (s.coord (pos b) - s.coord (pos a)) ∨
        (reverse = false ∧ ¬ IsLocal s.dim n (s.coord (pos b))))))

theorem index_some {s : CL A} {lower upper cut : Vec} {n : ℤ} (hm : Made s lower upper cut n)
    (hc : ∀ i, 0 < cut i) {x : Vec} {k : ℤ} : s.cellIndexFromPosition x = some k ↔
      s.Inside x ∧ k = cellIndex s.dim (s.coord x 0) (s.coord x 1) (s.coord x 2) := by
  by_cases hx : s.Inside x
  · rw [hm.index_eq hc x hx]
    simp only [Option.some.injEq, hx, true_and]
    exact eq_comm
  · rw [index_none hx]; simp [hx]

theorem pair_sublist_filter {l : List A} {p : A → Bool} {a b : A} :
    [a, b].Sublist (l.filter p) ↔ [a, b].Sublist l ∧ p a = true ∧ p b = true := by
  constructor
  · intro h
    have ha := (List.mem_filter.1 (h.subset (show a ∈ [a, b] by simp))).2
    have hb := (List.mem_filter.1 (h.subset (show b ∈ [a, b] by simp))).2
    exact ⟨h.trans List.filter_sublist, ha, hb⟩
  · rintro ⟨h, ha, hb⟩
    have := h.filter p
    simpa [ha, hb] using this

theorem index_coord {d c c' : IVec} (h : InGrid d c) (h' : InGrid d c') :
    cellIndex d (c 0) (c 1) (c 2) = cellIndex d (c' 0) (c' 1) (c' 2) ↔ c = c' :=
  ⟨fun e => cellIndex_inj h h' e, fun e => by rw [e]⟩

/-- The pairs visited by an iterator. -/
theorem pairs_spec {s : CL A} {lower upper cut : Vec} {n : ℤ} (hm : Made s lower upper cut n)
    (hb : Built s) (hc : ∀ i, 0 < cut i) {pos : A → Vec} {atoms : List A}
    (ht : s.tags = tagsOf s (atoms.map fun a => (a, pos a))) (hnd : atoms.Nodup)
    {reverse : Bool} (hz : reverse = true ∨ 2 * n ≤ axisDim (upper 2 - lower 2) (cut 2) n)
    {nr : A → A → Bool} {cap sc pc : ℕ} {p : PL A}
    (hp : buildPairList s reverse cap (lift nr) sc pc = .ok p) :
    ∃ P : List (A × A), (p.begin' Iter.start).pairs = P.map (fun q => (some (some q.1), some (some q.2))) ∧
      P.Nodup ∧ ∀ a b, (a, b) ∈ P ↔ Listed s cut n reverse nr pos atoms a b := by
  classical
  have hn := hm.one_le
  have hnc := hm.nCut
  have hd : ∀ i, 2 * n < s.dim i := by rw [← hnc]; exact hb.link.dim
  set offs := nearOffsets (visits s.dim (fun i => s.len i / cut i) n) with hoffs
  have h0 : (0 : ℤ) ∉ offs := fun h => (mem_nearOffsets.1 h).1 rfl
  have hnbr : ∀ ic ∈ localCells s.dim n,
      s.nbrList reverse ic = ((nbrCells s offs reverse ic).flatMap (atomsIn s pos atoms)).map some := by
    intro ic hic
    obtain ⟨c, h1, rfl⟩ := mem_localCells.1 hic
    rw [nbrList_eq hb hm reverse hz h1, List.map_flatMap, ht]
    apply List.flatMap_congr
    intro k _
    exact inCell_tagsOf s pos atoms k
  have hcnt : ∀ ic ∈ localCells s.dim n, (s.cells ic).nAtom = (atomsIn s pos atoms ic).length := by
    intro ic hic
    have hr := localCells_range (by omega) hic
    rw [(hb.cells ic hr.1 (by rw [hb.link.size]; exact hr.2)).2, ← length_inCell, ht, inCell_tagsOf,
      List.length_map]
  -- pairs of one cell
  have hcell : ∀ ic ∈ localCells s.dim n, cellList s reverse (lift nr) ic =
      (pairsFrom nr (atomsIn s pos atoms ic).length
        ((nbrCells s offs reverse ic).flatMap (atomsIn s pos atoms))).map
        fun q => (some q.1, some q.2) := by
    intro ic hic
    unfold cellList
    rw [hnbr ic hic, hcnt ic hic, pairsFrom_map]
  have hall := (buildPairList_spec hp).pairs
  have hwalk : s.walk = localCells s.dim n := by rw [← hnc]; exact hb.link.walk
  have hY : ∀ ic, (nbrCells s offs reverse ic).flatMap (atomsIn s pos atoms) =
      atomsIn s pos atoms ic ++ (nbrCells s offs reverse ic).tail.flatMap (atomsIn s pos atoms) := by
    intro ic; unfold nbrCells; rw [List.flatMap_cons, List.tail_cons]
  refine ⟨(localCells s.dim n).flatMap fun ic => pairsFrom nr (atomsIn s pos atoms ic).length
        ((nbrCells s offs reverse ic).flatMap (atomsIn s pos atoms)), ?_, ?_, ?_⟩
  · rw [hall, hwalk, List.map_flatMap, List.map_flatMap]
    apply List.flatMap_congr
    intro ic hic
    rw [hcell ic hic, List.map_map]; rfl
  · rw [List.nodup_flatMap]
    constructor
    · intro ic _
      exact nodup_pairsFrom _ _ _ (nodup_cells hnd _ (nodup_nbrCells (nodup_nearOffsets hd) h0 _ _))
    · refine (nodup_localCells (by omega)).pairwise_of_forall_ne ?_
      intro j _ k _ hjk q hq hq'
      have h1 := pairsFrom_fst _ _ _ _ hq
      have h2 := pairsFrom_fst _ _ _ _ hq'
      rw [hY, List.take_left] at h1 h2
      have h1 := (mem_atomsIn.1 h1).2
      have h2 := (mem_atomsIn.1 h2).2
      rw [h1] at h2
      exact hjk (Option.some.inj h2)
  · intro a b
    rw [List.mem_flatMap]
    have key : ∀ ic, (a, b) ∈ pairsFrom nr (atomsIn s pos atoms ic).length
        ((nbrCells s offs reverse ic).flatMap (atomsIn s pos atoms)) ↔
        nr a b = true ∧ a ∈ atoms ∧ b ∈ atoms ∧ s.cellIndexFromPosition (pos a) = some ic ∧
        ((s.cellIndexFromPosition (pos b) = some ic ∧ [a, b].Sublist atoms) ∨
          ∃ k ∈ (nbrCells s offs reverse ic).tail, s.cellIndexFromPosition (pos b) = some k) := by
      intro ic
      rw [hY, mem_pairsFrom]
      constructor
      · rintro ⟨h1, ⟨h2, h3⟩ | h2⟩
        · obtain ⟨k, hk, h3⟩ := List.mem_flatMap.1 h3
          have h2 := mem_atomsIn.1 h2
          have h3 := mem_atomsIn.1 h3
          exact ⟨h1, h2.1, h3.1, h2.2, Or.inr ⟨k, hk, h3.2⟩⟩
        · unfold atomsIn at h2
          obtain ⟨h2, h3, h4⟩ := pair_sublist_filter.1 h2
          exact ⟨h1, h2.subset (by simp), h2.subset (by simp), by simpa using h3,
            Or.inl ⟨by simpa using h4, h2⟩⟩
      · rintro ⟨h1, h2, h3, h4, ⟨h5, h6⟩ | ⟨k, hk, h5⟩⟩
        · refine ⟨h1, Or.inr ?_⟩
          unfold atomsIn
          exact pair_sublist_filter.2 ⟨h6, by simpa using h4, by simpa using h5⟩
        · exact ⟨h1, Or.inl ⟨mem_atomsIn.2 ⟨h2, h4⟩, List.mem_flatMap.2 ⟨k, hk, mem_atomsIn.2 ⟨h3, h5⟩⟩⟩⟩
    simp only [key]
    have tail : ∀ ic k, k ∈ (nbrCells s offs reverse ic).tail ↔ k - ic ∈ offs ∧
        (ic < k ∨ (reverse = false ∧ (s.cells k).ghost = true)) := by
      intro ic k
      have h1 := mem_nbrCells (s := s) (offs := offs) (reverse := reverse) (ic := ic) (k := k)
      have hnd' := nodup_nbrCells (s := s) (nodup_nearOffsets (d := s.dim) (q := fun i => s.len i / cut i) hd)
        h0 reverse ic
      have e : nbrCells s offs reverse ic = ic :: (nbrCells s offs reverse ic).tail := rfl
      rw [e] at h1 hnd'
      rw [List.mem_cons] at h1
      rw [List.nodup_cons] at hnd'
      constructor
      · intro h
        rcases h1.1 (Or.inr h) with h2 | h2
        · subst h2; exact absurd h hnd'.1
        · exact h2
      · intro h
        rcases h1.2 (Or.inr h) with h2 | h2
        · subst h2; simp only [sub_self] at h; exact absurd h.1 h0
        · exact h2
    unfold Listed
    constructor
    · rintro ⟨ic, hic, h1, h2, h3, h4, h5⟩
      obtain ⟨ia, ea⟩ := (index_some hm hc).1 h4
      have ga := hm.coord_inGrid hc ia
      have la : IsLocal s.dim n (s.coord (pos a)) := by
        rw [ea] at hic
        exact (mem_localCells_index (by omega) ga).1 hic
      rcases h5 with ⟨h5, h6⟩ | ⟨k, hk, h5⟩
      · obtain ⟨ib, eb⟩ := (index_some hm hc).1 h5
        have gb := hm.coord_inGrid hc ib
        exact ⟨h2, h3, h1, ia, ib, la, Or.inl ⟨(index_coord ga gb).1 (ea.symm.trans eb), h6⟩⟩
      · obtain ⟨ib, eb⟩ := (index_some hm hc).1 h5
        have gb := hm.coord_inGrid hc ib
        obtain ⟨t1, t2⟩ := (tail ic k).1 hk
        obtain ⟨hne, δ, hδ, hoff⟩ := mem_nearOffsets.1 t1
        have hcoord : s.coord (pos b) = s.coord (pos a) + δ := by
          apply cellIndex_inj gb (near_inGrid la hδ.1)
          have := cellIndex_add s.dim (s.coord (pos a)) δ
          simp only [Pi.add_apply]
          rw [this, ← ea, ← eb, ← hoff]; ring
        have hsub : s.coord (pos b) - s.coord (pos a) = δ := by rw [hcoord]; abel
        refine ⟨h2, h3, h1, ia, ib, la, Or.inr ?_⟩
        rw [hsub]
        refine ⟨hδ, ?_, ?_⟩
        · intro e
          rw [e] at hcoord
          apply hne
          rw [hoff]
          have : δ = 0 := by simpa using hcoord
          rw [this, off_zero]
        · rcases t2 with t2 | ⟨t2, t3⟩
          · left; rw [← hoff]; omega
          · right
            refine ⟨t2, fun hl => ?_⟩
            have hk' := cellIndex_range gb
            rw [← eb] at hk'
            have := (hb.link.ghost k hk'.1 (by rw [hb.link.size]; exact hk'.2)).2
              (by rw [hnc, eb]; exact (mem_localCells_index (by omega) gb).2 hl)
            rw [this] at t3
            exact absurd t3 (by simp)
    · rintro ⟨h2, h3, h1, ia, ib, la, h5⟩
      have ga := hm.coord_inGrid hc ia
      have gb := hm.coord_inGrid hc ib
      refine ⟨_, (mem_localCells_index (by omega) ga).2 la, h1, h2, h3, (index_some hm hc).2 ⟨ia, rfl⟩, ?_⟩
      rcases h5 with ⟨h5, h6⟩ | ⟨h5, h6, h7⟩
      · left
        exact ⟨(index_some hm hc).2 ⟨ib, by rw [h5]⟩, h6⟩
      · right
        refine ⟨_, ?_, (index_some hm hc).2 ⟨ib, rfl⟩⟩
        rw [tail]
        have hoff : cellIndex s.dim (s.coord (pos b) 0) (s.coord (pos b) 1) (s.coord (pos b) 2) =
            cellIndex s.dim (s.coord (pos a) 0) (s.coord (pos a) 1) (s.coord (pos a) 2) +
            off s.dim (s.coord (pos b) - s.coord (pos a)) := by
          rw [← cellIndex_add]; simp
        rw [hoff]
        refine ⟨?_, ?_⟩
        · rw [add_sub_cancel_left, mem_nearOffsets]
          refine ⟨?_, _, h5, rfl⟩
          rw [ne_eq, off_eq_zero hd h5.1, sub_eq_zero]
          exact fun e => h6 e.symm
        · rcases h7 with h7 | ⟨h7, h8⟩
          · left; omega
          · right
            refine ⟨h7, ?_⟩
            rw [← hoff]
            have hk' := cellIndex_range gb
            rw [← Bool.not_eq_false, hb.link.ghost _ hk'.1 (by rw [hb.link.size]; exact hk'.2), hnc,
              mem_localCells_index (by omega) gb]
            exact h8


end Verif.DdCellList
