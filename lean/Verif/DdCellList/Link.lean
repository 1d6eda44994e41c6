import Verif.DdCellList.Offsets

/-! # The linked list of local cells -/

set_option autoImplicit false

namespace Verif.DdCellList

open Verif.Boundary Verif.Cpp Verif.McCellList

variable {A : Type}

/-- The members of the list are linked in order, and the last one has no successor. -/
def Chain (cells : ℤ → Cell) : List ℤ → Prop
  | [] => True
  | [a] => (cells a).next = none
  | a :: b :: l => (cells a).next = some b ∧ Chain cells (b :: l)

theorem walk_chain {cells : ℤ → Cell} (l : List ℤ) (a : ℤ) (h : Chain cells (a :: l)) (f : ℕ)
    (hf : l.length < f) : walk cells f (some a) = a :: l := by
  induction l generalizing a f with
  | nil =>
    obtain ⟨f, rfl⟩ : ∃ g, f = g + 1 := ⟨f - 1, by simp at hf; omega⟩
    have h' : (cells a).next = none := h
    simp only [walk, h']
    cases f <;> rfl
  | cons b l ih =>
    obtain ⟨f, rfl⟩ : ∃ g, f = g + 1 := ⟨f - 1, by simp at hf; omega⟩
    simp only [walk, h.1]
    rw [ih b h.2 f (by simp at hf; omega)]

theorem chain_congr {c c' : ℤ → Cell} (l : List ℤ) (h : ∀ k ∈ l, (c k).next = (c' k).next)
    (hc : Chain c l) : Chain c' l := by
  induction l with
  | nil => trivial
  | cons a l ih =>
    cases l with
    | nil => change _ = _ at hc; change _ = _; rw [← h a (by simp)]; exact hc
    | cons b l =>
      refine ⟨by rw [← h a (by simp)]; exact hc.1, ih (fun k hk => h k (by simp at hk ⊢; tauto)) hc.2⟩

/-- Everything but `ghost` and `next` is unchanged. -/
def SameData (c c' : Cell) : Prop :=
  c'.id = c.id ∧ c'.begin' = c.begin' ∧ c'.nAtom = c.nAtom ∧ c'.cap = c.cap

theorem SameData.refl (c : Cell) : SameData c c := ⟨rfl, rfl, rfl, rfl⟩

theorem SameData.trans {a b c : Cell} (h : SameData a b) (g : SameData b c) : SameData a c :=
  ⟨g.1.trans h.1, g.2.1.trans h.2.1, g.2.2.1.trans h.2.2.1, g.2.2.2.trans h.2.2.2⟩

theorem link_from (l : List ℤ) (p : ℤ) (cells : ℤ → Cell) (f : Option ℤ) (h : (p :: l).Nodup) :
    ∃ q, q ∈ p :: l ∧ (l.foldl linkStep (cells, some p, f)).2.1 = some q ∧
      (l.foldl linkStep (cells, some p, f)).2.2 = f ∧
      (∀ k, k ∉ p :: l → (l.foldl linkStep (cells, some p, f)).1 k = cells k) ∧
      ((l.foldl linkStep (cells, some p, f)).1 p).ghost = (cells p).ghost ∧
      (∀ k ∈ l, ((l.foldl linkStep (cells, some p, f)).1 k).ghost = false) ∧
      (∀ k, SameData (cells k) ((l.foldl linkStep (cells, some p, f)).1 k)) ∧
      Chain (Function.update (l.foldl linkStep (cells, some p, f)).1 q
        { (l.foldl linkStep (cells, some p, f)).1 q with next := none }) (p :: l) := by
  induction l generalizing p cells with
  | nil =>
    refine ⟨p, by simp, rfl, rfl, fun _ _ => rfl, rfl, by simp, fun k => SameData.refl _, ?_⟩
    change _ = _
    simp
  | cons c l ih =>
    have hpc : p ≠ c := fun e => by rw [List.nodup_cons] at h; exact h.1 (e ▸ by simp)
    have hpl : p ∉ c :: l := (List.nodup_cons.1 h).1
    have step : linkStep (cells, some p, f) c =
        (Function.update (Function.update cells c { cells c with ghost := false }) p
          { cells p with next := some c }, some c, f) := by
      unfold linkStep
      simp only [Function.update_of_ne hpc]
    rw [List.foldl_cons, step]
    obtain ⟨q, i1, i2, i3, i4, i5, i6, i7, i8⟩ := ih c
      (Function.update (Function.update cells c { cells c with ghost := false }) p
        { cells p with next := some c }) (List.nodup_cons.1 h).2
    generalize l.foldl linkStep (Function.update (Function.update cells c { cells c with ghost := false }) p
        { cells p with next := some c }, some c, f) = r at *
    have hqp : q ≠ p := fun e => hpl (e ▸ i1)
    have rp := i4 p hpl
    rw [Function.update_self] at rp
    refine ⟨q, List.mem_cons_of_mem _ i1, i2, i3, ?_, ?_, ?_, ?_, ?_, i8⟩
    · intro k hk
      rw [i4 k (fun hk' => hk (List.mem_cons_of_mem _ hk')),
        Function.update_of_ne (by rintro rfl; simp at hk),
        Function.update_of_ne (by rintro rfl; simp at hk)]
    · rw [rp]
    · intro k hk
      rcases List.mem_cons.1 hk with rfl | hk
      · rw [i5, Function.update_of_ne hpc.symm, Function.update_self]
      · exact i6 k hk
    · intro k
      refine SameData.trans ?_ (i7 k)
      by_cases hk : k = p
      · subst hk; rw [Function.update_self]; exact ⟨rfl, rfl, rfl, rfl⟩
      · rw [Function.update_of_ne hk]
        by_cases hk' : k = c
        · subst hk'; rw [Function.update_self]; exact ⟨rfl, rfl, rfl, rfl⟩
        · rw [Function.update_of_ne hk']; exact SameData.refl _
    · rw [Function.update_of_ne hqp.symm, rp]

/-! ### Local cells -/

/-- Coordinates of a local cell. -/
def IsLocal (d : IVec) (n : ℤ) (c : IVec) : Prop := ∀ i, n ≤ c i ∧ c i < d i - n

theorem mem_localCells {d : IVec} {n k : ℤ} :
    k ∈ localCells d n ↔ ∃ c, IsLocal d n c ∧ k = cellIndex d (c 0) (c 1) (c 2) := by
  unfold localCells
  simp only [List.mem_flatMap, List.mem_map, mem_loop]
  constructor
  · rintro ⟨i, hi, j, hj, k', hk, rfl⟩
    refine ⟨![i, j, k'], ?_, rfl⟩
    intro a
    fin_cases a
    · simp; omega
    · simp; omega
    · simp; omega
  · rintro ⟨c, hc, rfl⟩
    have h0 := hc 0
    have h1 := hc 1
    have h2 := hc 2
    exact ⟨c 0, by omega, c 1, by omega, c 2, by omega, rfl⟩

theorem IsLocal.inGrid {d : IVec} {n : ℤ} {c : IVec} (hn : 0 ≤ n) (h : IsLocal d n c) :
    InGrid d c := fun i => by have := h i; omega

theorem nodup_localCells {d : IVec} {n : ℤ} (hn : 0 ≤ n) : (localCells d n).Nodup := by
  have inj : ∀ i j k i' j' k' : ℤ, (n ≤ i ∧ i ≤ d 0 - n - 1) → (n ≤ j ∧ j ≤ d 1 - n - 1) →
      (n ≤ k ∧ k ≤ d 2 - n - 1) → (n ≤ i' ∧ i' ≤ d 0 - n - 1) → (n ≤ j' ∧ j' ≤ d 1 - n - 1) →
      (n ≤ k' ∧ k' ≤ d 2 - n - 1) → cellIndex d i j k = cellIndex d i' j' k' →
      i = i' ∧ j = j' ∧ k = k' := by
    intro i j k i' j' k' a1 a2 a3 b1 b2 b3 h
    have g1 : InGrid d ![i, j, k] := by
      intro a; fin_cases a
      · simp; omega
      · simp; omega
      · simp; omega
    have g2 : InGrid d ![i', j', k'] := by
      intro a; fin_cases a
      · simp; omega
      · simp; omega
      · simp; omega
    have e := cellIndex_inj g1 g2 (by simpa using h)
    exact ⟨by simpa using congrFun e 0, by simpa using congrFun e 1, by simpa using congrFun e 2⟩
  unfold localCells
  rw [List.nodup_flatMap]
  constructor
  · intro i hi
    rw [mem_loop] at hi
    rw [List.nodup_flatMap]
    constructor
    · intro j hj
      rw [mem_loop] at hj
      refine List.Nodup.map_on ?_ (nodup_loop _ _)
      intro x hx y hy hxy
      rw [mem_loop] at hx hy
      exact (inj _ _ _ _ _ _ hi hj hx hi hj hy hxy).2.2
    · refine List.Nodup.pairwise_of_forall_ne (nodup_loop _ _) ?_
      intro j hj j' hj' hne x hx hx'
      rw [mem_loop] at hj hj'
      obtain ⟨k, hk, rfl⟩ := List.mem_map.1 hx
      obtain ⟨k', hk', e⟩ := List.mem_map.1 hx'
      rw [mem_loop] at hk hk'
      exact hne (inj _ _ _ _ _ _ hi hj hk hi hj' hk' e.symm).2.1
  · refine List.Nodup.pairwise_of_forall_ne (nodup_loop _ _) ?_
    intro i hi i' hi' hne x hx hx'
    rw [mem_loop] at hi hi'
    obtain ⟨j, hj, hx⟩ := List.mem_flatMap.1 hx
    obtain ⟨j', hj', hx'⟩ := List.mem_flatMap.1 hx'
    obtain ⟨k, hk, rfl⟩ := List.mem_map.1 hx
    obtain ⟨k', hk', e⟩ := List.mem_map.1 hx'
    rw [mem_loop] at hj hj' hk hk'
    exact hne (inj _ _ _ _ _ _ hi hj hk hi' hj' hk' e.symm).1

theorem localCells_range {d : IVec} {n k : ℤ} (hn : 0 ≤ n) (h : k ∈ localCells d n) :
    0 ≤ k ∧ k < gridSize d := by
  obtain ⟨c, hc, rfl⟩ := mem_localCells.1 h
  exact cellIndex_range (hc.inGrid hn)

/-- The local cells are linked, marked and numbered correctly. -/
structure LinkOK (s : CL A) : Prop where
  n : 1 ≤ s.nCut
  dim : ∀ i, 2 * s.nCut < s.dim i
  size : s.size = gridSize s.dim
  ids : ∀ k, 0 ≤ k → k < s.size → (s.cells k).id = k
  ghost : ∀ k, 0 ≤ k → k < s.size → ((s.cells k).ghost = false ↔ k ∈ localCells s.dim s.nCut)
  link : ∃ a l, localCells s.dim s.nCut = a :: l ∧ s.first = some a ∧ Chain s.cells (a :: l)

theorem LinkOK.walk {s : CL A} (h : LinkOK s) : s.walk = localCells s.dim s.nCut := by
  obtain ⟨a, l, hl, hf, hc⟩ := h.link
  have hn := h.n
  unfold CL.walk
  rw [hf, hl]
  refine walk_chain l a hc _ ?_
  have hnd := nodup_localCells (d := s.dim) (n := s.nCut) (by omega)
  have hsub : (localCells s.dim s.nCut) ⊆ loop 0 (s.size - 1) := by
    intro k hk
    have := localCells_range (by omega) hk
    rw [mem_loop, h.size]; omega
  have := (List.subperm_of_subset hnd hsub).length_le
  rw [length_loop, hl, List.length_cons] at this
  omega

/-- Properties kept by all operations. -/
structure Inv (s : CL A) : Prop where
  size : 0 ≤ s.size
  ids : ∀ k, 0 ≤ k → k < s.size → (s.cells k).id = k
  link : s.nCut ≠ -1 → LinkOK s

theorem inv_start (cells : ℤ → Cell) (atoms : ℕ → Option A) (v : Vec) :
    Inv (CL.start cells atoms v) :=
  ⟨le_rfl, fun k h1 h2 => by simp [CL.start] at h2; omega, fun h => absurd rfl h⟩

/-- `LinkOK` and `Inv` depend only on these members. -/
structure SameTopo (s t : CL A) : Prop where
  size : t.size = s.size
  dim : t.dim = s.dim
  nCut : t.nCut = s.nCut
  first : t.first = s.first
  cells : ∀ k, (t.cells k).id = (s.cells k).id ∧ (t.cells k).ghost = (s.cells k).ghost ∧
    (t.cells k).next = (s.cells k).next

theorem SameTopo.refl (s : CL A) : SameTopo s s := ⟨rfl, rfl, rfl, rfl, fun _ => ⟨rfl, rfl, rfl⟩⟩

theorem SameTopo.trans {s t u : CL A} (h : SameTopo s t) (g : SameTopo t u) : SameTopo s u :=
  ⟨g.1.trans h.1, g.2.trans h.2, g.3.trans h.3, g.4.trans h.4, fun k =>
    ⟨(g.5 k).1.trans (h.5 k).1, (g.5 k).2.1.trans (h.5 k).2.1, (g.5 k).2.2.trans (h.5 k).2.2⟩⟩

theorem SameTopo.link {s t : CL A} (h : SameTopo s t) (hs : LinkOK s) : LinkOK t := by
  obtain ⟨a, l, hl, hf, hc⟩ := hs.link
  refine ⟨by rw [h.nCut]; exact hs.n, by rw [h.nCut, h.dim]; exact hs.dim,
    by rw [h.size, h.dim]; exact hs.size, ?_, ?_, ⟨a, l, ?_, ?_, ?_⟩⟩
  · intro k h0 h1; rw [(h.cells k).1]; exact hs.ids k h0 (by rw [← h.size]; exact h1)
  · intro k h0 h1
    rw [(h.cells k).2.1, h.dim, h.nCut]; exact hs.ghost k h0 (by rw [← h.size]; exact h1)
  · rw [h.dim, h.nCut]; exact hl
  · rw [h.first]; exact hf
  · exact chain_congr _ (fun k _ => ((h.cells k).2.2).symm) hc

theorem SameTopo.inv {s t : CL A} (h : SameTopo s t) (hs : Inv s) : Inv t := by
  refine ⟨by rw [h.size]; exact hs.size, ?_, fun hn => h.link (hs.link (by rw [← h.nCut]; exact hn))⟩
  intro k h0 h1; rw [(h.cells k).1]; exact hs.ids k h0 (by rw [← h.size]; exact h1)

/-- Relinking succeeds and gives a correct list. -/
theorem relink_ok {s : CL A} (hs : 0 ≤ s.size)
    (hid : ∀ k, 0 ≤ k → k < s.size → (s.cells k).id = k) {d : IVec} (hn : 1 ≤ s.nCut)
    (hd : ∀ i, 2 * s.nCut < d i) :
    ∃ t, s.relink d s.nCut = .ok t ∧ LinkOK t ∧ t.dim = d ∧ t.nCut = s.nCut ∧
      t.lower = s.lower ∧ t.upper = s.upper ∧ t.lowerOuter = s.lowerOuter ∧
      t.upperOuter = s.upperOuter ∧ t.len = s.len ∧ t.offsets = s.offsets ∧
      t.atomCap = s.atomCap := by
  have hnd := nodup_localCells (d := d) (n := s.nCut) (by omega)
  unfold CL.relink
  generalize hc : prepCells s.cells s.size (gridSize d) = c0
  have id0 : ∀ k, 0 ≤ k → k < gridSize d → (c0 k).id = k ∧ (c0 k).ghost = true := by
    intro k h0 h1
    subst hc
    unfold prepCells
    simp only [h0, h1, and_self, if_true, and_true]
    by_cases hsz : gridSize d > s.size
    · rw [if_pos hsz]
    · rw [if_neg hsz]; exact hid k h0 (by omega)
  have hne : localCells d s.nCut ≠ [] := by
    have : cellIndex d s.nCut s.nCut s.nCut ∈ localCells d s.nCut :=
      mem_localCells.2 ⟨fun _ => s.nCut, fun i => by have := hd i; beta_reduce; omega, rfl⟩
    exact List.ne_nil_of_mem this
  obtain ⟨a, l, hl⟩ := List.exists_cons_of_ne_nil hne
  simp only
  rw [hl] at hnd
  have step : linkStep (c0, none, s.first) a =
      (Function.update c0 a { c0 a with ghost := false }, some a, some a) := rfl
  obtain ⟨q, i1, i2, i3, i4, i5, i6, i7, i8⟩ := link_from l a
    (Function.update c0 a { c0 a with ghost := false }) (some a) hnd
  rw [hl, List.foldl_cons, hc, step]
  generalize l.foldl linkStep (Function.update c0 a { c0 a with ghost := false }, some a, some a) = r
    at *
  rw [i2]
  refine ⟨_, rfl, ⟨hn, hd, rfl, ?_, ?_, ⟨a, l, hl, i3, i8⟩⟩, rfl, rfl, rfl, rfl, rfl, rfl, rfl, rfl,
    rfl⟩
  · intro k h0 h1
    have e : (Function.update c0 a { c0 a with ghost := false } k).id = (c0 k).id := by
      by_cases hk : k = a
      · subst hk; rw [Function.update_self]
      · rw [Function.update_of_ne hk]
    have : (r.1 k).id = k := (i7 k).1.trans (e.trans (id0 k h0 h1).1)
    change (Function.update r.1 q { r.1 q with next := none } k).id = k
    by_cases hk : k = q
    · subst hk; rw [Function.update_self]; exact this
    · rw [Function.update_of_ne hk]; exact this
  · intro k h0 h1
    have e : (Function.update r.1 q { r.1 q with next := none } k).ghost = (r.1 k).ghost := by
      by_cases hk : k = q
      · subst hk; rw [Function.update_self]
      · rw [Function.update_of_ne hk]
    change (Function.update r.1 q { r.1 q with next := none } k).ghost = false ↔ k ∈ localCells d s.nCut
    rw [e, hl]
    by_cases hk : k ∈ a :: l
    · refine ⟨fun _ => hk, fun _ => ?_⟩
      rcases List.mem_cons.1 hk with rfl | hk
      · rw [i5, Function.update_self]
      · exact i6 k hk
    · refine ⟨fun h => ?_, fun h => absurd h hk⟩
      rw [i4 k hk, Function.update_of_ne (by rintro rfl; simp at hk), (id0 k h0 h1).2] at h
      simp at h

theorem gridSize_ge {d : IVec} {n : ℤ} (hn : 1 ≤ n) (hd : ∀ i, 2 * n < d i) : 27 ≤ gridSize d := by
  have h0 := hd 0
  have h1 := hd 1
  have h2 := hd 2
  unfold gridSize
  have a : 9 ≤ d 1 * d 2 := by nlinarith
  nlinarith

/-- Number of local cells along an axis. -/
theorem axisDim_ge {L c : ℝ} {n : ℤ} (hc : 0 < c) (h : c ≤ L) (hn : 1 ≤ n) : n ≤ axisDim L c n := by
  unfold axisDim
  have hn' : (0 : ℝ) ≤ n := by exact_mod_cast (by omega)
  have h1 : (n : ℝ) ≤ L * n / c := by
    rw [le_div_iff₀ hc]; nlinarith
  rw [trunc_of_nonneg (by linarith), Int.le_floor]
  exact h1

/-- Everything that `makeGrid` computes. -/
structure Made (s : CL A) (lower upper cut : Vec) (n : ℤ) : Prop where
  link : LinkOK s
  nCut : s.nCut = n
  n4 : n ≤ 4
  dim : ∀ i, s.dim i = axisDim (upper i - lower i) (cut i) n + 2 * n
  len : ∀ i, s.len i = (upper i - lower i) / (axisDim (upper i - lower i) (cut i) n : ℝ)
  lowerOuter : ∀ i, s.lowerOuter i = lower i - (n : ℝ) * s.len i
  upperOuter : ∀ i, s.upperOuter i = upper i + (n : ℝ) * s.len i
  cutLe : ∀ i, cut i ≤ upper i - lower i
  offsets : s.offsets = makeOffsets s.dim (fun i => s.len i / cut i) n

theorem makeGrid_ok {s : CL A} (h : Inv s) (lower upper cut : Vec) (n : ℤ) (hn : 1 ≤ n) (hn4 : n ≤ 4)
    (hc : ∀ i, 0 < cut i) (hl : ∀ i, cut i ≤ upper i - lower i) :
    ∃ t, s.makeGrid lower upper cut n = .ok t ∧ Made t lower upper cut n ∧ t.atomCap = s.atomCap := by
  unfold CL.makeGrid
  have hlen : ¬ ∃ i, upper i - lower i < 0 ∨ upper i - lower i < cut i := by
    rintro ⟨i, hi⟩
    have := hl i
    have := hc i
    rcases hi with hi | hi <;> linarith
  rw [if_neg (by omega), if_neg (by omega), if_neg hlen]
  have hd : ∀ i, 2 * n < axisDim (upper i - lower i) (cut i) n + 2 * n := fun i => by
    have := axisDim_ge (hc i) (hl i) hn
    omega
  simp only
  split_ifs with hnew
  · obtain ⟨t, h1, h2, h3, h4, h5, h6, h7, h8, h9, h10, h11⟩ := relink_ok
      (s := { s with lower := lower, upper := upper, nCut := n
                     len := fun i => (upper i - lower i) / (axisDim (upper i - lower i) (cut i) n : ℝ)
                     lowerOuter := fun i => lower i - (n : ℝ) * ((upper i - lower i) / (axisDim (upper i - lower i) (cut i) n : ℝ))
                     upperOuter := fun i => upper i + (n : ℝ) * ((upper i - lower i) / (axisDim (upper i - lower i) (cut i) n : ℝ))
                     offsets := makeOffsets (fun i => axisDim (upper i - lower i) (cut i) n + 2 * n) (fun i => ((upper i - lower i) / (axisDim (upper i - lower i) (cut i) n : ℝ)) / cut i) n })
      h.size h.ids (d := fun i => axisDim (upper i - lower i) (cut i) n + 2 * n) hn hd
    refine ⟨t, h1, ⟨h2, h4, hn4, by rw [h3]; intro i; rfl, by rw [h9]; intro i; rfl, ?_, ?_, hl, ?_⟩, h11⟩
    · rw [h7, h9]; intro i; rfl
    · rw [h8, h9]; intro i; rfl
    · rw [h10, h3, h9]
  · push Not at hnew
    obtain ⟨-, n1, n2, n3⟩ := hnew
    have hk := h.link n1
    refine ⟨_, rfl, ⟨?_, rfl, hn4, fun i => (n3 i).symm, fun i => rfl, fun i => rfl, fun i => rfl, hl, ?_⟩, rfl⟩
    · refine SameTopo.link (s := s) ⟨rfl, rfl, ?_, rfl, fun k => ⟨rfl, rfl, rfl⟩⟩ hk
      exact n2.symm
    · have : (fun i => axisDim (upper i - lower i) (cut i) n + 2 * n) = s.dim := funext n3
      change makeOffsets _ _ n = makeOffsets s.dim _ n
      rw [this]

end Verif.DdCellList
