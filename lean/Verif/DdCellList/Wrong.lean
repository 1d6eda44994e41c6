import Verif.DdCellList.Once

/-! # C21, C22: success of the calls, and behaviour outside the hypotheses -/

set_option autoImplicit false

namespace Verif.DdCellList

open Verif.Boundary Verif.Cpp Verif.McCellList

variable {A : Type}

/-! ### When the calls succeed -/

/-- **`buildPairList` succeeds** after `buildCellList` if no neighbour array overflows and either
the pair list already has capacity or there is at least one pair. -/
theorem C22_build_succeeds {s : CL A} (hb : s.built = true) (reverse : Bool) (cap : ℕ)
    (near : Option A → Option A → Bool) {sc pc : ℕ} (hsc : 0 < sc)
    (hcap : ∀ ic ∈ s.walk, (s.nbrList reverse ic).length ≤ cap)
    (hpc : 0 < pc ∨ s.walk.flatMap (cellList s reverse near) ≠ []) :
    ∃ p, buildPairList s reverse cap near sc pc = .ok p := by
  obtain ⟨p, hp⟩ := cells_ok s reverse cap near s.walk ⟨[], [], [0]⟩ hcap
  have hh := cells_hold s reverse cap near s.walk holds_empty hp
  have key : ∀ pc, 0 < pc → buildPairs s reverse cap near sc pc = .ok p := by
    intro pc h
    unfold buildPairs
    rw [if_neg (by simp [hb]), if_neg (by omega), if_neg (by omega), hp]
    exact hh.check
  unfold buildPairList
  rw [if_neg (by omega), if_neg (by simp [hb])]
  by_cases h0 : pc = 0
  · rw [if_pos h0]
    have hc : ∃ k, countPairs s reverse cap near = .ok k := by
      unfold countPairs
      rw [if_neg (by simp [hb])]
      clear hp hh key hpc
      generalize 0 = k0
      generalize s.walk = cs at hcap
      induction cs generalizing k0 with
      | nil => exact ⟨k0, rfl⟩
      | cons ic cs ih =>
        simp only [List.foldlM_cons, bind, Except.bind]
        have : ∃ q, countCell s reverse cap near k0 ic = .ok q := by
          unfold countCell CL.getNeighbors
          rw [if_pos (hcap ic (by simp))]
          split_ifs
          · exact ⟨_, rfl⟩
          · exact ⟨_, rfl⟩
        obtain ⟨q, hq⟩ := this
        rw [hq]
        exact ih q (fun ic h => hcap ic (List.mem_cons_of_mem _ h))
    obtain ⟨k, hk⟩ := hc
    rw [hk]
    unfold countPairs at hk
    rw [if_neg (by simp [hb])] at hk
    have hk' := count_ok s reverse cap near s.walk 0 k hk
    have hpos : 0 < k := by
      rw [hk', Nat.zero_add]
      rcases hpc with h | h
      · omega
      · exact List.length_pos_of_ne_nil h
    refine ⟨p, ?_⟩
    simp only [Except.bind]
    rw [if_pos hpos]
    exact key _ (by omega)
  · rw [if_neg h0]
    exact ⟨p, key pc (by omega)⟩

/-- **C22, negation.** If the first pair list of a processor would be empty, `buildPairList`
throws instead of making an empty list (the capacity for pairs is still zero). -/
theorem C22_empty_first_build_throws {s : CL A} (hb : s.built = true) (reverse : Bool) (cap : ℕ)
    (near : Option A → Option A → Bool) {sc : ℕ}
    (h : s.walk.flatMap (cellList s reverse near) = []) (p : PL A) :
    buildPairList s reverse cap near sc 0 ≠ .ok p := by
  intro hp
  unfold buildPairList at hp
  split_ifs at hp with _ _ h0
  swap
  · exact absurd rfl h0
  cases hc : countPairs s reverse cap near with
  | error e => rw [hc] at hp; simp [Except.bind] at hp
  | ok k =>
    rw [hc] at hp
    unfold countPairs at hc
    rw [if_neg (by simp [hb])] at hc
    have hk := count_ok s reverse cap near s.walk 0 k hc
    rw [h] at hk
    simp only [List.length_nil, Nat.add_zero] at hk
    subst hk
    simp only [Except.bind, gt_iff_lt, lt_irrefl, if_false] at hp
    unfold buildPairs at hp
    split_ifs at hp

/-- A cell list as constructed. -/
def fresh : CL A := CL.start (fun _ => ⟨0, none, 0, 0, false, none⟩) (fun _ => none) 0

/-- Every arrangement of atoms can be listed: the hypothesis `Lists` of the theorems is met. -/
theorem lists_exist {L : Vec} {cart : Vec → Vec} {n : ℤ} {c : ℝ} (hc : 0 < c) (hL : ∀ i, 0 < L i)
    (hn : 1 ≤ n) (hn4 : n ≤ 4) {lower upper : Vec} (hle : ∀ i, c / L i ≤ upper i - lower i)
    (reverse : Bool) (hz : reverse = true ∨ 2 * n ≤ axisDim (upper 2 - lower 2) (c / L 2) n)
    (pos : A → Vec) (masked : A → A → Prop) (atoms : List A) (hnd : atoms.Nodup) :
    ∃ P, Lists L cart lower upper c n reverse pos masked atoms P := by
  have hcut : ∀ i, 0 < c / L i := fun i => div_pos hc (hL i)
  have hr : (fresh : CL A).Reach := CL.Reach.start _ _ _
  obtain ⟨s, h1, h2, h3, h4, h5⟩ := buildAll_ok hr.inv (atoms.length + 1) (by omega) lower upper
    (fun i => c / L i) n hn hn4 hcut hle (atoms.map fun a => (a, pos a)) (by simp)
  obtain ⟨p, hp⟩ := C22_build_succeeds h3.built reverse
    ((s.walk.map fun ic => (s.nbrList reverse ic).length).sum) (lift (test cart c pos masked))
    (sc := 1) (pc := 1) (by omega)
    (fun ic hic => List.single_le_sum (by simp) _ (List.mem_map_of_mem hic)) (Or.inl (by omega))
  obtain ⟨P, p1, -, -⟩ := pairs_spec h2 h3 hcut h4 hnd hz hp
  exact ⟨P, fresh, s, p, _, _, _, _, hr, by omega, by omega, h1, hp, p1⟩

/-! ### Atoms outside the domain -/

/-- An atom outside the half-open domain of the processor, such as an atom left exactly on an
upper face (`C16_upper_face_stays`), lies in a ghost cell and is never the first of a pair: with a
ghost it forms no pair. -/
theorem C22_upper_face_not_primary {L : Vec} {cart : Vec → Vec} (hL : ∀ i, 0 < L i) {n : ℤ} {c : ℝ}
    (hc : 0 < c) {masked : A → A → Prop} {lower upper : Vec} {reverse : Bool} {pos : A → Vec}
    {atoms : List A} (hnd : atoms.Nodup)
    (hz : reverse = true ∨ 2 * (c / L 2) ≤ upper 2 - lower 2) {P : List (A × A)}
    (h : Lists L cart lower upper c n reverse pos masked atoms P) {a b : A}
    (ha : ∃ i, pos a i < lower i ∨ upper i ≤ pos a i) : (a, b) ∉ P := by
  obtain ⟨s, hm, -, hmem⟩ := h.spec hL hc hnd hz
  intro hab
  have h6 := ((hmem a b).1 hab).2.2.2.2.2.1
  have := (hm.isLocal_iff (fun i => div_pos hc (hL i)) _).1 h6
  obtain ⟨i, hi⟩ := ha
  have := this i
  rcases hi with hi | hi <;> linarith [this.1, this.2]

/-! ### An iterator used again -/

/-- `begin` of an empty list leaves the iterator unchanged: an iterator used before for another
list visits the pairs of that list. -/
theorem C22_empty_list_keeps_iterator (it : Iter A) (p : PL A) (hp : p.atom1 = []) :
    p.begin' it = it := by
  unfold PL.begin'; simp [hp]

/-- Witness: an iterator over a list with one pair, then `begin` of an empty list. -/
theorem C22_reused_iterator_stale (a b : A) :
    ∃ (p q : PL A), q.atom1 = [] ∧ q.atom2 = [] ∧
      (q.begin' (p.begin' Iter.start)).pairs = [(some (some a), some (some b))] := by
  refine ⟨⟨[some a], [some b], [0, 1]⟩, ⟨[], [], [0]⟩, rfl, rfl, ?_⟩
  simp [PL.begin', Iter.pairs, Iter.run]

/-! ### Monoclinic boundaries with several cells per cutoff -/

theorem floor_of {x : ℝ} (k : ℤ) (h1 : (k : ℝ) ≤ x) (h2 : x < k + 1) : ⌊x⌋ = k :=
  Int.floor_eq_iff.2 ⟨h1, h2⟩

theorem axisDim_eq {l c : ℝ} {n : ℤ} (k : ℕ) (h : l * n / c = k) : axisDim l c n = k := by
  unfold axisDim
  rw [h, trunc_of_nonneg (by positivity)]
  simp

/-- Two scaled positions in a sheared cell. -/
noncomputable def lostPos : Fin 2 → Vec := ![![1 / 2, 29 / 80, 101 / 160], ![1 / 2, 61 / 80, 101 / 160 - 48 / 125]]

/-- **C21, negation.** With a monoclinic boundary and more than one cell per cutoff the test that
selects neighbouring cells is wrong: two atoms at distance 0.4 are listed in neither order for
cutoff 0.5 (one processor, 4 cells per cutoff, with or without reverse communication). -/
theorem C21_mono_pairs_lost {bd : Mono} (hbd : bd.Reach) (hl : bd.l = ![1, 1, 25 / 7])
    (hd : bd.d = 24 / 7) (reverse : Bool) {P : List (Fin 2 × Fin 2)}
    (h : Lists bd.lengths bd.toCart (fun _ => 0) (fun _ => 1) (1 / 2) 4 reverse lostPos
      (fun _ _ => False) [0, 1] P) :
    normSq (bd.toCart (lostPos 1) - bd.toCart (lostPos 0)) = (2 / 5) ^ 2 ∧
    (∀ a i, 0 ≤ lostPos a i ∧ lostPos a i < 1) ∧ (0, 1) ∉ P ∧ (1, 0) ∉ P := by
  have hL : bd.lengths = fun _ => 1 := by
    rw [hbd.ok.lengths, hbd.ok.c3, hl, hd]
    have : Real.sqrt (1 + -(24 / 7 : ℝ) / 1 * (-(24 / 7) / 1)) = 25 / 7 := by
      rw [show (1 + -(24 / 7 : ℝ) / 1 * (-(24 / 7) / 1)) = (25 / 7) ^ 2 by norm_num]
      exact Real.sqrt_sq (by norm_num)
    funext i
    fin_cases i
    · simp
    · simp
    · simp only [Matrix.cons_val_one, Matrix.cons_val_zero, Fin.reduceFinMk, Matrix.cons_val]
      rw [this]; norm_num
  rw [hL] at h
  have hc : (0 : ℝ) < 1 / 2 := by norm_num
  have hcut : ∀ i : Fin 3, (0 : ℝ) < 1 / 2 / (1 : ℝ) := fun _ => by norm_num
  obtain ⟨s, hm, -, hmem⟩ := h.spec (fun _ => by norm_num) hc (by decide) (Or.inr (by norm_num))
  have hax : axisDim ((1 : ℝ) - 0) (1 / 2 / 1) 4 = (8 : ℕ) := axisDim_eq 8 (by norm_num)
  have hlen : ∀ i, s.len i = 1 / 8 := by
    intro i
    rw [hm.len i]
    beta_reduce
    rw [hax]; norm_num
  have hco : ∀ x i, s.coord x i = ⌊x i * 8⌋ + 4 := by
    intro x i
    rw [hm.coord_eq hcut, hlen]
    congr 2
    ring
  have a1 : s.coord (lostPos 0) 1 = 6 := by
    rw [hco, floor_of 2] <;> simp [lostPos] <;> norm_num
  have b1 : s.coord (lostPos 1) 1 = 10 := by
    rw [hco, floor_of 6] <;> simp [lostPos] <;> norm_num
  have a2 : s.coord (lostPos 0) 2 = 9 := by
    rw [hco, floor_of 5] <;> simp [lostPos] <;> norm_num
  have b2 : s.coord (lostPos 1) 2 = 5 := by
    rw [hco, floor_of 1] <;> simp [lostPos] <;> norm_num
  have hne : s.coord (lostPos 0) ≠ s.coord (lostPos 1) := fun e => by
    have := congrFun e 1; rw [a1, b1] at this; omega
  have hfar : ¬ NearCell (fun i => s.len i / (1 / 2 / (1 : ℝ))) 4
      (s.coord (lostPos 1) - s.coord (lostPos 0)) := by
    rintro ⟨-, h2⟩
    simp only [Pi.sub_apply, a1, a2, b1, b2, hlen] at h2
    have e0 : 0 ≤ eVal (1 / 8 / (1 / 2 / (1 : ℝ))) (s.coord (lostPos 1) 0 - s.coord (lostPos 0) 0) := by
      unfold eVal; split_ifs
      · exact le_rfl
      · exact mul_self_nonneg _
    have e1 : eVal (1 / 8 / (1 / 2 / (1 : ℝ))) (10 - 6) = 9 / 16 := by
      unfold eVal; norm_num
    have e2 : eVal (1 / 8 / (1 / 2 / (1 : ℝ))) (5 - 9) = 9 / 16 := by
      unfold eVal; norm_num
    rw [e1, e2] at h2
    linarith
  refine ⟨?_, ?_, ?_, ?_⟩
  · simp [normSq, Mono.toCart, lostPos, hl, hd]; norm_num
  · intro a i
    fin_cases a <;> fin_cases i <;> simp [lostPos] <;> norm_num
  · intro hP
    rcases ((hmem 0 1).1 hP).2.2.2.2.2.2 with ⟨e, _⟩ | ⟨e, _⟩
    · exact hne e
    · exact hfar e
  · intro hP
    rcases ((hmem 1 0).1 hP).2.2.2.2.2.2 with ⟨e, _⟩ | ⟨e, _⟩
    · exact hne e.symm
    · have := near_neg e
      rw [neg_sub] at this
      exact hfar this

example : ∃ (bd : Mono) (P : List (Fin 2 × Fin 2)), bd.Reach ∧ bd.l = ![1, 1, 25 / 7] ∧
    bd.d = 24 / 7 ∧ Lists bd.lengths bd.toCart (fun _ => 0) (fun _ => 1) (1 / 2) 4 true lostPos
      (fun _ _ => False) [0, 1] P := by
  obtain ⟨bd, h1, h2, h3⟩ := reach_mono ![1, 1, 25 / 7] (24 / 7) (by
    intro i; fin_cases i <;> simp)
  have hf := frame_mono h1
  have hle : ∀ i, 1 / 2 / bd.lengths i ≤ (1 : ℝ) - 0 := by
    have hL : bd.lengths = fun _ => 1 := by
      rw [h1.ok.lengths, h1.ok.c3, h2, h3]
      have : Real.sqrt (1 + -(24 / 7 : ℝ) / 1 * (-(24 / 7) / 1)) = 25 / 7 := by
        rw [show (1 + -(24 / 7 : ℝ) / 1 * (-(24 / 7) / 1)) = (25 / 7) ^ 2 by norm_num]
        exact Real.sqrt_sq (by norm_num)
      funext i
      fin_cases i
      · simp
      · simp
      · simp only [Matrix.cons_val_one, Matrix.cons_val_zero, Fin.reduceFinMk, Matrix.cons_val]
        rw [this]; norm_num
    intro i; rw [hL]; norm_num
  obtain ⟨P, hP⟩ := lists_exist (A := Fin 2) (cart := bd.toCart) (n := 4) (c := 1 / 2) (by norm_num)
    hf.pos (by norm_num) (by norm_num) (lower := fun _ => 0) (upper := fun _ => 1) hle true
    (Or.inl rfl) lostPos (fun _ _ => False) [0, 1] (by decide)
  exact ⟨bd, P, h1, h2, h3, hP⟩

/-! ### Domains thinner than two cutoffs, without reverse communication -/

theorem eVal_one (q : ℝ) {i : ℤ} (h : i = -1 ∨ i = 0 ∨ i = 1) : eVal q i = 0 := by
  unfold eVal
  rcases h with rfl | rfl | rfl <;> simp

theorem visits_one (d : IVec) (q : Vec) : visits d q 1 =
    (loop (-1) 1).flatMap fun i => (loop (-1) 1).flatMap fun j => (loop (-1) 1).map fun k =>
      (true, i * (d 2 * d 1) + j * d 2 + k) := by
  have hm : ∀ i, i ∈ loop (-1) 1 → i = -1 ∨ i = 0 ∨ i = 1 := by
    intro i hi; rw [mem_loop] at hi; omega
  unfold visits
  refine List.flatMap_congr fun i hi => List.flatMap_congr fun j hj => List.map_congr_left fun k hk => ?_
  rw [eVal_one _ (hm i hi), eVal_one _ (hm j hj), eVal_one _ (hm k hk)]
  simp

/-- Two scaled positions. -/
noncomputable def thinPos : Fin 2 → Vec := ![![2 / 5, 1 / 2, 1 / 2], ![3 / 5, 1 / 2, 1 / 2]]

/-- **C22, negation.** Without reverse communication, in a domain with fewer than two cutoffs in
the last direction, a pair of local atoms is listed twice, in both orders (one processor, box with
sides 2, 1, 1 and cutoff 1, one cell per cutoff). -/
theorem C22_thin_domain_twice : ∃ (s : CL (Fin 2)) (p : PL (Fin 2)),
    (fresh : CL (Fin 2)).buildAll 3 (fun _ => 0) (fun _ => 1) (fun i => 1 / (![2, 1, 1] : Vec) i) 1
      ([0, 1].map fun a => (a, thinPos a)) = .ok s ∧
    buildPairList s false 2000 (lift (test (fun x i => (![2, 1, 1] : Vec) i * x i) 1 thinPos
      (fun _ _ => False))) 3 1 = .ok p ∧
    (some (some 0), some (some 1)) ∈ (p.begin' Iter.start).pairs ∧
    (some (some 1), some (some 0)) ∈ (p.begin' Iter.start).pairs := by
  have hL : ∀ i, 0 < (![2, 1, 1] : Vec) i := by intro i; fin_cases i <;> simp
  have hcut : ∀ i, 0 < 1 / (![2, 1, 1] : Vec) i := fun i => div_pos one_pos (hL i)
  have hr : (fresh : CL (Fin 2)).Reach := CL.Reach.start _ _ _
  obtain ⟨s, h1, hm, hb, ht, h5⟩ := buildAll_ok hr.inv 3 (by omega) (fun _ => 0) (fun _ => 1)
    (fun i => 1 / (![2, 1, 1] : Vec) i) 1 (by omega) (by omega) hcut
    (by intro i; fin_cases i <;> simp; norm_num) ([0, 1].map fun a => (a, thinPos a)) (by simp)
  have hdim : s.dim = ![4, 3, 3] := by
    funext i
    rw [hm.dim i]
    fin_cases i
    · have := axisDim_eq (l := (1 : ℝ) - 0) (c := 1 / 2) (n := 1) 2 (by norm_num)
      simp only [Fin.zero_eta, Matrix.cons_val_zero]
      rw [this]; rfl
    · have := axisDim_eq (l := (1 : ℝ) - 0) (c := 1 / 1) (n := 1) 1 (by norm_num)
      simp only [Fin.mk_one, Matrix.cons_val_one, Matrix.cons_val_zero]
      rw [this]; rfl
    · have := axisDim_eq (l := (1 : ℝ) - 0) (c := 1 / 1) (n := 1) 1 (by norm_num)
      simp only [Fin.reduceFinMk, Matrix.cons_val]
      rw [this]; rfl
  have hoff : s.offsets = [(0, 0), (-13, -1), (1, 13)] := by
    rw [hm.offsets]
    unfold makeOffsets
    rw [visits_one, hdim]
    rfl
  have hax : ∀ i, axisDim ((1 : ℝ) - 0) (1 / (![2, 1, 1] : Vec) i) 1 = s.dim i - 2 := by
    intro i; have := hm.dim i; omega
  have hlen0 : s.len 0 = 1 / 2 := by
    rw [hm.len 0]; beta_reduce; rw [hax, hdim]; norm_num
  have hlen1 : s.len 1 = 1 := by
    rw [hm.len 1]; beta_reduce; rw [hax, hdim]; norm_num
  have hlen2 : s.len 2 = 1 := by
    rw [hm.len 2]; beta_reduce; rw [hax, hdim]; simp
  have hin : ∀ a i, 0 ≤ thinPos a i ∧ thinPos a i < 1 := by
    intro a i
    fin_cases a <;> fin_cases i <;> simp [thinPos] <;> norm_num
  have hidx : ∀ a, s.cellIndexFromPosition (thinPos a) = some (if a = 0 then 13 else 22) := by
    intro a
    rw [index_some hm hcut]
    refine ⟨hm.inside_local hcut (hin a), ?_⟩
    rw [hm.coord_eq hcut, hm.coord_eq hcut, hm.coord_eq hcut, hlen0, hlen1, hlen2, hdim]
    fin_cases a
    · rw [floor_of 0, floor_of 0, floor_of 0] <;> simp [thinPos, cellIndex] <;> norm_num
    · rw [floor_of 1, floor_of 0, floor_of 0] <;> simp [thinPos, cellIndex] <;> norm_num
  have htags : s.tags = [((0 : Fin 2), (13 : ℤ)), (1, 22)] := by
    rw [ht]
    simp [tagsOf, hidx]
  have hsize : s.size = 36 := by
    rw [hb.link.size, hdim]; rfl
  have hghost : ∀ k, 0 ≤ k → k < 36 → ((s.cells k).ghost = false ↔ k = 13 ∨ k = 22) := by
    intro k h1 h2
    rw [hb.link.ghost k h1 (by omega), hm.nCut, hdim]
    have : localCells ![4, 3, 3] 1 = [13, 22] := by rfl
    rw [this]; simp
  have hid : ∀ k, 0 ≤ k → k < 36 → (s.cells k).id = k := fun k h1 h2 => hb.link.ids k h1 (by omega)
  have g9 : (s.cells 9).ghost = true := by
    rw [← Bool.not_eq_false, hghost 9 (by omega) (by omega)]; omega
  have g21 : (s.cells 21).ghost = true := by
    rw [← Bool.not_eq_false, hghost 21 (by omega) (by omega)]; omega
  have g0 : (s.cells 0).ghost = true := by
    rw [← Bool.not_eq_false, hghost 0 (by omega) (by omega)]; omega
  have g12 : (s.cells 12).ghost = true := by
    rw [← Bool.not_eq_false, hghost 12 (by omega) (by omega)]; omega
  have up : ∀ b f, (s.cells b).ghost = true → upToGhost s.cells f b = b := by
    intro b f h; cases f <;> simp [upToGhost, h]
  have dn : ∀ b f, (s.cells b).ghost = true → downToGhost s.cells f b = b := by
    intro b f h; cases f <;> simp [downToGhost, h]
  have n22 : s.nbrList false 22 = [some 1, some 0] := by
    unfold CL.nbrList
    rw [hoff]
    have r1 : s.range false 22 (0, 0) = some (22, 22) := by
      unfold CL.range; norm_num
    have r2 : s.range false 22 (-13, -1) = some (9, 21) := by
      unfold CL.range
      norm_num
      rw [hid 9 (by omega) (by omega), hid 22 (by omega) (by omega)]
      exact fun _ => ⟨Or.inl g9, up _ _ g9, dn _ _ g21⟩
    have r3 : s.range false 22 (1, 13) = some (23, 35) := by
      unfold CL.range
      norm_num
      rw [hid 23 (by omega) (by omega), hid 22 (by omega) (by omega)]
      exact fun h => absurd h (by omega)
    simp only [List.flatMap_cons, List.flatMap_nil, List.append_nil]
    unfold CL.stripAtoms
    rw [r1, r2, r3]
    simp only
    rw [strip_eq hb (by omega) (by omega) (by omega), strip_eq hb (by omega) (by omega) (by omega),
      strip_eq hb (by omega) (by omega) (by omega), htags]
    rfl
  have n13 : s.nbrList false 13 = [some 0, some 1] := by
    unfold CL.nbrList
    rw [hoff]
    have r1 : s.range false 13 (0, 0) = some (13, 13) := by
      unfold CL.range; norm_num
    have r2 : s.range false 13 (-13, -1) = some (0, 12) := by
      unfold CL.range
      norm_num
      rw [hid 0 (by omega) (by omega), hid 13 (by omega) (by omega)]
      exact fun _ => ⟨Or.inl g0, up _ _ g0, dn _ _ g12⟩
    have r3 : s.range false 13 (1, 13) = some (14, 26) := by
      unfold CL.range
      norm_num
      rw [hid 14 (by omega) (by omega), hid 13 (by omega) (by omega)]
      exact fun h => absurd h (by omega)
    simp only [List.flatMap_cons, List.flatMap_nil, List.append_nil]
    unfold CL.stripAtoms
    rw [r1, r2, r3]
    simp only
    rw [strip_eq hb (by omega) (by omega) (by omega), strip_eq hb (by omega) (by omega) (by omega),
      strip_eq hb (by omega) (by omega) (by omega), htags]
    rfl
  have c13 : (s.cells 13).nAtom = 1 := by
    rw [(hb.cells 13 (by omega) (by omega)).2, htags]; rfl
  have c22 : (s.cells 22).nAtom = 1 := by
    rw [(hb.cells 22 (by omega) (by omega)).2, htags]; rfl
  have hwalk : s.walk = [13, 22] := by
    rw [hb.link.walk, hm.nCut, hdim]; rfl
  obtain ⟨p, hp⟩ := C22_build_succeeds hb.built false 2000
    (lift (test (fun x i => (![2, 1, 1] : Vec) i * x i) 1 thinPos (fun _ _ => False))) (sc := 3)
    (pc := 1) (by omega) (by
      rw [hwalk]
      intro ic hic
      simp only [List.mem_cons, List.not_mem_nil, or_false] at hic
      rcases hic with rfl | rfl
      · rw [n13]; simp
      · rw [n22]; simp) (Or.inl (by omega))
  have t01 : test (fun x i => (![2, 1, 1] : Vec) i * x i) 1 thinPos (fun _ _ => False) 0 1 = true := by
    rw [test_iff]
    refine ⟨?_, id⟩
    simp [Within, normSq, thinPos]; norm_num
  have t10 : test (fun x i => (![2, 1, 1] : Vec) i * x i) 1 thinPos (fun _ _ => False) 1 0 = true := by
    rw [test_iff]
    exact ⟨(test_iff.1 t01).1.symm, id⟩
  have hpairs := (buildPairList_spec hp).pairs
  rw [hwalk] at hpairs
  simp only [List.flatMap_cons, List.flatMap_nil, List.append_nil, cellList, c13, c22, n13, n22,
    pairsFrom, lift, List.filter_cons, t01, t10, if_true, List.filter_nil] at hpairs
  refine ⟨s, p, h1, hp, ?_, ?_⟩ <;> rw [hpairs] <;> simp

/-! ### The hypotheses of the theorems are met -/

/-- Positions of two local atoms and a ghost, in scaled coordinates. -/
noncomputable def threePos : Fin 3 → Vec :=
  ![![1 / 20, 1 / 2, 1 / 2], ![3 / 20, 1 / 2, 1 / 2], ![-1 / 20, 1 / 2, 1 / 2]]

/-- The hypotheses of `C22_processor_partial` hold for a box with sides 10, cutoff 2 and one cell or four
cells per cutoff, with and without reverse communication; two atoms are within the cutoff and the
ghost is within the cutoff of the first. -/
example (n : ℤ) (h1 : 1 ≤ n) (h4 : n ≤ 4) (reverse : Bool) : ∃ (bd : Ortho) (P : List (Fin 3 × Fin 3)),
    bd.Reach ∧ bd.lengths = (fun _ => 10) ∧ Frame bd.lengths bd.toCart n ∧
    ([0, 1] ++ [2] : List (Fin 3)).Nodup ∧
    (∀ a ∈ ([0, 1] : List (Fin 3)), ∀ i, 0 ≤ threePos a i ∧ threePos a i < 1) ∧
    (∀ a ∈ ([2] : List (Fin 3)), ¬ ∀ i, 0 ≤ threePos a i ∧ threePos a i < 1) ∧
    Within bd.toCart 2 (threePos 0) (threePos 1) ∧ Within bd.toCart 2 (threePos 0) (threePos 2) ∧
    2 * (2 / bd.lengths 2) ≤ (1 : ℝ) - 0 ∧
    Lists bd.lengths bd.toCart (fun _ => 0) (fun _ => 1) 2 n reverse threePos (fun _ _ => False)
      ([0, 1] ++ [2]) P := by
  obtain ⟨bd, hb, hl⟩ := reach_ortho (fun _ => 10) (fun _ => by norm_num)
  have hax : 2 * n ≤ axisDim ((1 : ℝ) - 0) (2 / bd.lengths 2) n := by
    have : (axisDim ((1 : ℝ) - 0) (2 / bd.lengths 2) n : ℤ) = ((5 * n).toNat : ℕ) := by
      apply axisDim_eq
      rw [hl]
      have : (((5 * n).toNat : ℕ) : ℝ) = ((5 * n : ℤ) : ℝ) := by
        have h : ((5 * n).toNat : ℤ) = 5 * n := by omega
        exact_mod_cast h
      rw [this]; push_cast; ring
    omega
  obtain ⟨P, hP⟩ := lists_exist (A := Fin 3) (cart := bd.toCart) (n := n) (c := 2) (by norm_num)
    hb.ok.pos h1 h4 (lower := fun _ => 0) (upper := fun _ => 1) (by intro i; rw [hl]; norm_num) reverse
    (Or.inr hax) threePos (fun _ _ => False) ([0, 1] ++ [2]) (by decide)
  refine ⟨bd, P, hb, hl, frame_ortho hb n, by decide, ?_, ?_, ?_, ?_, ?_, hP⟩
  · intro a ha i
    simp only [List.mem_cons, List.not_mem_nil, or_false] at ha
    rcases ha with rfl | rfl <;> fin_cases i <;> simp [threePos] <;> norm_num
  · intro a ha h
    simp only [List.mem_cons, List.not_mem_nil, or_false] at ha
    subst ha
    have := (h 0).1
    simp [threePos] at this
    norm_num at this
  · simp [Within, normSq, Ortho.toCart, hl, threePos]; norm_num
  · simp [Within, normSq, Ortho.toCart, hl, threePos]; norm_num
  · rw [hl]; norm_num

open Verif.DdExchange Verif.DdChem

/-- Two atoms. -/
noncomputable def twoAtoms : List (Atom ℕ) :=
  [⟨7, ![-1 / 20, 1 / 2, 1 / 2], Plan.mk 0⟩, ⟨8, ![1 / 20, 1 / 2, 1 / 2], Plan.mk 0⟩]

open Classical in
/-- Both atoms are on processor 0 of `grid2`; the first has left the domain and the box. -/
noncomputable def twoState : Proc grid2 → Local ℕ := fun p =>
  ⟨if p = proc0 then twoAtoms else [], fun _ => []⟩

theorem twoState_mem {p : Proc grid2} {a : Atom ℕ} (h : a ∈ (twoState p).atoms) :
    p = proc0 ∧ a ∈ twoAtoms := by
  classical
  unfold twoState at h
  by_cases hp : p = proc0
  · simp only [hp, if_true] at h; exact ⟨hp, h⟩
  · simp [hp] at h

/-- The hypotheses of `C22_all_processors` hold for two processors, with a pair of atoms closer
than the cutoff that are owned by different processors. -/
example : ∃ (bd : Ortho) (P : Proc grid2 → List (Atom ℕ × Atom ℕ)), bd.Reach ∧
    bd.lengths = (fun _ => 10) ∧ Frame bd.lengths bd.toCart 1 ∧
    SlabOK grid2 (fun i => 2 / bd.lengths i) ∧ WithinReach (fun i => 2 / bd.lengths i) twoState ∧
    OffUpperFaces twoState ∧ Distinct (fun p => (twoState p).atoms) ∧
    (∃ a ∈ (twoState proc0).atoms, ∃ b ∈ (twoState proc0).atoms, a.data ≠ b.data ∧
      normSq (bd.toCart (b.pos - a.pos)) < 2 ^ 2) ∧
    ∀ p, Lists bd.lengths bd.toCart (fun i => bound p i 0) (fun i => bound p i 1) 2 1 true Atom.pos
      (fun _ _ => False) ((exchange (fun i => 2 / bd.lengths i) twoState).atoms p) (P p) := by
  classical
  obtain ⟨bd, hb, hl⟩ := reach_ortho (fun _ => 10) (fun _ => by norm_num)
  have hs : SlabOK grid2 (fun i => 2 / bd.lengths i) := by
    intro i; rw [hl]; fin_cases i <;> simp [grid2] <;> norm_num
  have hw : WithinReach (fun i => 2 / bd.lengths i) twoState := by
    intro p a ha i
    obtain ⟨rfl, ha2⟩ := twoState_mem ha
    rw [hl]
    unfold twoAtoms at ha2
    simp only [List.mem_cons, List.not_mem_nil, or_false] at ha2
    rcases ha2 with rfl | rfl <;> fin_cases i <;> simp [bound, proc0, grid2] <;> norm_num
  have hid : Distinct (fun p => (twoState p).atoms) := by
    have e : copies (fun p => (twoState p).atoms) =
        Multiset.map (fun a => (proc0, a)) (twoAtoms : Multiset (Atom ℕ)) := by
      rw [copies, Finset.sum_eq_single proc0]
      · simp [twoState]
      · intro p _ hp; simp [twoState, hp]
      · intro h; exact absurd (Finset.mem_univ _) h
    rw [Distinct, e, Multiset.map_map, Multiset.map_coe, Multiset.coe_nodup]
    simp [twoAtoms]
  have hex := C17_exchange _ hs twoState hw hid
  have key : ∀ p, ∃ P, Lists bd.lengths bd.toCart (fun i => bound p i 0) (fun i => bound p i 1) 2 1
      true Atom.pos (fun _ _ => False) ((exchange (fun i => 2 / bd.lengths i) twoState).atoms p) P := by
    intro p
    refine lists_exist (by norm_num) hb.ok.pos (by norm_num) (by norm_num) ?_ true (Or.inl rfl) _ _ _
      (List.Nodup.of_map _ (hex p).2.2.1)
    intro i
    rw [bound_diff]
    exact (hs i).2
  choose P hP using key
  refine ⟨bd, P, hb, hl, frame_ortho hb 1, hs, hw, ?_, hid, ⟨twoAtoms[0], ?_, twoAtoms[1], ?_, ?_, ?_⟩, hP⟩
  · intro p a ha
    obtain ⟨rfl, ha2⟩ := twoState_mem ha
    intro i
    unfold twoAtoms at ha2
    simp only [List.mem_cons, List.not_mem_nil, or_false] at ha2
    rcases ha2 with rfl | rfl <;> fin_cases i <;> simp [bound, proc0, grid2] <;> norm_num
  · simp [twoState, twoAtoms]
  · simp [twoState, twoAtoms]
  · simp [twoAtoms]
  · simp [twoAtoms, normSq, Ortho.toCart, hl]; norm_num

end Verif.DdCellList
