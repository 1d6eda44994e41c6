import Verif.McPairList.Lemmas
import Verif.McCellList.Props

/-!
# C05, C06: the Monte Carlo / molecular dynamics pair list

The cell list is the one built by an arbitrary allowed history of the cell list
(in the code: `setup` followed by `addAtom` for every atom,
`MdPairPotential::buildPairList`, MdPairPotential.cpp:39-68).
-/

namespace Verif.McPairList

open Verif.Boundary Verif.McCellList

/-! ## Specification -/

/-- Some periodic image of the separation is shorter than `x`. -/
def Closer (bravais : Fin 3 → Vec) (x : ℝ) (r1 r2 : Vec) : Prop :=
  ∃ k : IVec, normSq (r1 - r2 + latComb bravais k) < x ^ 2

/-- `P` lists every unordered pair of distinct atoms of `S` satisfying `R`
exactly once (with the smaller id first), and nothing else. -/
def ExactlyOnce (S : Finset Nat) (R : Nat → Nat → Prop) (P : List (Nat × Nat)) : Prop :=
  P.Nodup ∧ ∀ i j, (i, j) ∈ P ↔ i ∈ S ∧ j ∈ S ∧ i < j ∧ R i j

/-! ## Construction -/

/-- The pairs written by the loops, characterised. -/
theorem allPairs_exact {gen : Vec → Vec} {lengths : Vec} {bravais : Fin 3 → Vec}
    {dsq : Vec → Vec → ℝ} (geo : Geo gen lengths bravais) (dist : Dist bravais dsq)
    {cap : Nat} {cutoff : ℝ} {s0 cl : CL} (hs : setup lengths cutoff = some s0) {ops : List Op}
    (ha : AllowedHist gen cap s0.n ⟨∅, fun _ _ => 0⟩ ops) (hrun : run gen cap s0 ops = .ok cl)
    (c : Ctx) (hpos : c.pos = (Abs.run ops).pos) (hdsq : c.dsq = dsq) (hcut : c.cutoff = cutoff) :
    ExactlyOnce (Abs.run ops).S
      (fun i j => ¬ c.masked i j ∧ dsq (c.pos i) (c.pos j) < cutoff ^ 2)
      (allPairs c cl cl.tot.toNat) ∧
    (allAtoms cl cl.tot.toNat).Nodup ∧
    (∀ a, a ∈ allAtoms cl cl.tot.toNat ↔ a ∈ (Abs.run ops).S) := by
  obtain ⟨cl', h1, hn, hrel⟩ := run_rel (A := ⟨∅, fun _ _ => 0⟩) (rel_setup hs _) ha
  rw [hrun] at h1
  cases h1
  have hR : Rel cap cl (Abs.run ops).S (fun a => gen ((Abs.run ops).pos a)) := hrel
  -- every live atom sits in one numbered cell
  have hcell : ∀ a ∈ (Abs.run ops).S, ∃ m : Nat, m < cl.tot.toNat ∧
      (m : ℤ) = kOf cl.n (gen ((Abs.run ops).pos a)) := by
    intro a haS
    have := kOf_range hR.npos (hR.unit a haS)
    refine ⟨(kOf cl.n (gen ((Abs.run ops).pos a))).toNat, ?_, by omega⟩
    unfold CL.tot
    omega
  -- neighbour arrays of cells containing an atom
  have hnb : ∀ i ∈ (Abs.run ops).S,
      (cl.cellNeighbors (kOf cl.n (gen ((Abs.run ops).pos i)))).1.Nodup ∧
      (∀ j ∈ (cl.cellNeighbors (kOf cl.n (gen ((Abs.run ops).pos i)))).1, j ∈ (Abs.run ops).S) ∧
      (∀ j ∈ (Abs.run ops).S, Closer bravais cutoff ((Abs.run ops).pos i) ((Abs.run ops).pos j) →
        j ∈ (cl.cellNeighbors (kOf cl.n (gen ((Abs.run ops).pos i)))).1) := by
    intro i hi
    have hu := hR.unit i hi
    have hget : cl.getNeighbors gen ((Abs.run ops).pos i)
        = some (cl.cellNeighbors (kOf cl.n (gen ((Abs.run ops).pos i)))).1 := by
      have : indexFromGen cl.n (gen ((Abs.run ops).pos i))
          = some (kOf cl.n (gen ((Abs.run ops).pos i))) := indexFromGen_eq hR.npos hu
      simp [CL.getNeighbors, this]
    obtain ⟨s1, l1, e1, e2, nd, sub, _⟩ :=
      C03_neighbors_nodup gen cap lengths cutoff s0 hs ops ha ((Abs.run ops).pos i) hu
    rw [hrun] at e1
    cases e1
    rw [hget] at e2
    cases e2
    obtain ⟨s2, l2, e3, e4, compl⟩ :=
      neighbors_complete geo cap cutoff s0 hs ops ha ((Abs.run ops).pos i) hu
    rw [hrun] at e3
    cases e3
    rw [hget] at e4
    cases e4
    exact ⟨nd, sub, fun j hj hcl => compl j hj hcl⟩
  have hmem : ∀ (m : Nat) a, a ∈ (cl.cells m).list ↔
      a ∈ (Abs.run ops).S ∧ kOf cl.n (gen ((Abs.run ops).pos a)) = m := fun m a => hR.mem_list m a
  refine ⟨⟨?_, ?_⟩, ?_, ?_⟩
  · unfold allPairs
    rw [List.nodup_flatMap]
    refine ⟨?_, ?_⟩
    · intro m _
      unfold cellPairs
      rw [List.nodup_flatMap]
      refine ⟨?_, ?_⟩
      · intro i hi
        obtain ⟨hiS, hk⟩ := (hmem m i).1 hi
        refine List.Nodup.map (fun a b h => by simpa using h) ?_
        unfold sel
        apply List.Nodup.filter
        rw [← hk]
        exact (hnb i hiS).1
      · refine List.Pairwise.imp ?_ (hR.nodup_list m)
        intro i i' hne
        rw [Function.onFun, List.disjoint_left]
        rintro ⟨x, y⟩ h1 h2
        obtain ⟨j, _, e⟩ := List.mem_map.1 h1
        obtain ⟨j', _, e'⟩ := List.mem_map.1 h2
        simp only [Prod.mk.injEq] at e e'
        exact hne (e.1.trans e'.1.symm)
    · refine List.Pairwise.imp ?_ List.nodup_range
      intro m m' hne
      rw [Function.onFun, List.disjoint_left]
      rintro ⟨x, y⟩ h1 h2
      unfold cellPairs at h1 h2
      obtain ⟨i, hi, h1⟩ := List.mem_flatMap.1 h1
      obtain ⟨i', hi', h2⟩ := List.mem_flatMap.1 h2
      obtain ⟨j, _, e⟩ := List.mem_map.1 h1
      obtain ⟨j', _, e'⟩ := List.mem_map.1 h2
      simp only [Prod.mk.injEq] at e e'
      have hii : i = i' := e.1.trans e'.1.symm
      subst hii
      have a1 := ((hmem m i).1 hi).2
      have a2 := ((hmem m' i).1 hi').2
      rw [a1] at a2
      exact hne (by exact_mod_cast a2)
  · intro i j
    unfold allPairs cellPairs sel
    simp only [List.mem_flatMap, List.mem_map, List.mem_filter, List.mem_range,
      decide_eq_true_eq, Prod.mk.injEq]
    constructor
    · rintro ⟨m, hm, i', hi', j', ⟨hj', hc⟩, rfl, rfl⟩
      obtain ⟨hiS, hk⟩ := (hmem m i').1 hi'
      rw [← hk] at hj'
      have hc3 := hc.2.2
      rw [hdsq, hcut] at hc3
      exact ⟨hiS, (hnb i' hiS).2.1 j' hj', hc.1, hc.2.1, by rw [pow_two]; exact hc3⟩
    · rintro ⟨hiS, hjS, hlt, hnm, hd⟩
      obtain ⟨m, hm, hk⟩ := hcell i hiS
      refine ⟨m, hm, i, (hmem m i).2 ⟨hiS, hk.symm⟩, j, ⟨?_, hlt, hnm, ?_⟩, rfl, rfl⟩
      · rw [hk]
        refine (hnb i hiS).2.2 j hjS ?_
        obtain ⟨k, hkk⟩ := dist.image (c.pos i) (c.pos j)
        rw [hkk] at hd
        rw [hpos] at hd
        exact ⟨k, hd⟩
      · rw [hdsq, hcut, ← pow_two]; exact hd
  · unfold allAtoms
    rw [List.nodup_flatMap]
    refine ⟨fun m _ => hR.nodup_list m, ?_⟩
    refine List.Pairwise.imp ?_ List.nodup_range
    intro m m' hne
    rw [Function.onFun, List.disjoint_left]
    intro a h1 h2
    have a1 := ((hmem m a).1 h1).2
    have a2 := ((hmem m' a).1 h2).2
    rw [a1] at a2
    exact hne (by exact_mod_cast a2)
  · intro a
    unfold allAtoms
    simp only [List.mem_flatMap, List.mem_range]
    constructor
    · rintro ⟨m, _, h⟩; exact ((hmem m a).1 h).1
    · intro haS
      obtain ⟨m, hm, hk⟩ := hcell a haS
      exact ⟨m, hm, (hmem m a).2 ⟨haS, hk.symm⟩⟩

/-- Result of a successful or failed `build`. -/
theorem build_spec {c : Ctx} {cl : CL} (st : PL) (h1 : 0 ≤ c.atomCap) (h2 : 0 ≤ c.pairCap) :
    (∀ st', build c cl st = some st' → st'.builds ≠ 0 ∧
      J c st' (allAtoms cl cl.tot.toNat) (allPairs c cl cl.tot.toNat)) ∧
    (build c cl st = none → c.atomCap < ((allAtoms cl cl.tot.toNat).length : ℤ) ∨
      c.pairCap < ((allPairs c cl cl.tot.toNat).length : ℤ)) := by
  have hJ := J_cells (cl := cl) (J_reset c st h1 h2) cl.tot.toNat
  unfold build
  cases hf : (List.range cl.tot.toNat).foldlM (cellBody c cl) (st.reset c.atomCap) with
  | none => exact ⟨fun _ h => (by cases h), fun _ => hJ.2 hf⟩
  | some s =>
    refine ⟨?_, fun h => (by cases h)⟩
    intro st' h
    simp only [Option.some.injEq] at h
    subst h
    have j := hJ.1 s hf
    exact ⟨by simp, ⟨j.n, j.n2, j.n1, j.cnt, j.tle, j.le, j.le2, j.first0, j.firstn, j.mono, j.snd,
      j.fst, j.recd, j.tot⟩⟩

/-! ## C05 -/

/-- Generic form of C05, for both boundary types. -/
theorem pair_list_exact {gen : Vec → Vec} {lengths : Vec} {bravais : Fin 3 → Vec}
    {dsq : Vec → Vec → ℝ} (geo : Geo gen lengths bravais) (dist : Dist bravais dsq)
    {cap : Nat} {cutoff : ℝ} {s0 cl : CL} (hs : setup lengths cutoff = some s0) {ops : List Op}
    (ha : AllowedHist gen cap s0.n ⟨∅, fun _ _ => 0⟩ ops) (hrun : run gen cap s0 ops = .ok cl)
    (masked : Nat → Nat → Prop) (atomCap pairCap : ℤ) (h1 : 0 ≤ atomCap) (h2 : 0 ≤ pairCap)
    (st : PL) :
    let A := Abs.run ops
    let c : Ctx := ⟨A.pos, masked, dsq, cutoff, atomCap, pairCap⟩
    let R := fun i j => ¬ masked i j ∧ dsq (A.pos i) (A.pos j) < cutoff ^ 2
    (∀ st', build c cl st = some st' →
      ∃ P, st'.pairs = P.map (fun x => (some x.1, some x.2)) ∧ ExactlyOnce A.S R P) ∧
    (build c cl st = none →
      atomCap < A.S.card ∨ ∃ P, ExactlyOnce A.S R P ∧ pairCap < P.length) := by
  intro A c R
  obtain ⟨hex, hnd, hmem⟩ := allPairs_exact geo dist hs ha hrun c rfl rfl rfl
  obtain ⟨hok, hbad⟩ := build_spec (c := c) (cl := cl) st h1 h2
  refine ⟨?_, ?_⟩
  · intro st' h
    exact ⟨_, (hok st' h).2.pairs_eq, hex⟩
  · intro h
    rcases hbad h with h | h
    · left
      have : (allAtoms cl cl.tot.toNat).length = A.S.card := by
        rw [← List.toFinset_card_of_nodup hnd]
        congr 1
        ext a
        rw [List.mem_toFinset]
        exact hmem a
      rw [this] at h
      exact h
    · right
      exact ⟨_, hex, h⟩

/-- **C05 (orthorhombic, tetragonal, cubic).**  For every reachable boundary,
every set of atoms in the primary cell, every mask and every previous state of
the list: if `build` returns, iterating over the list yields each unordered
unmasked pair of distinct atoms that has a periodic image closer than the list
cutoff exactly once, and no other pair; it throws only if one of the two
capacities is exceeded. -/
theorem C05_pair_list_ortho {b : Ortho} (hb : b.Reach) {cap : Nat} {cutoff : ℝ} {s0 cl : CL}
    (hs : setup b.lengths cutoff = some s0) {ops : List Op}
    (ha : AllowedHist b.toGen cap s0.n ⟨∅, fun _ _ => 0⟩ ops)
    (hrun : run b.toGen cap s0 ops = .ok cl)
    (masked : Nat → Nat → Prop) (atomCap pairCap : ℤ) (h1 : 0 ≤ atomCap) (h2 : 0 ≤ pairCap)
    (st : PL) :
    let A := Abs.run ops
    let c : Ctx := ⟨A.pos, masked, b.distanceSq, cutoff, atomCap, pairCap⟩
    let R := fun i j => ¬ masked i j ∧ Closer b.bravais cutoff (A.pos i) (A.pos j)
    (∀ st', build c cl st = some st' →
      ∃ P, st'.pairs = P.map (fun x => (some x.1, some x.2)) ∧ ExactlyOnce A.S R P) ∧
    (build c cl st = none →
      atomCap < A.S.card ∨ ∃ P, ExactlyOnce A.S R P ∧ pairCap < P.length) := by
  intro A c R
  have key : ∀ P, ExactlyOnce A.S
      (fun i j => ¬ masked i j ∧ b.distanceSq (A.pos i) (A.pos j) < cutoff ^ 2) P →
      ExactlyOnce A.S R P := by
    rintro P ⟨hnd, hm⟩
    obtain ⟨_, _, _, hrel⟩ := run_rel (A := ⟨∅, fun _ _ => 0⟩) (rel_setup hs _) ha
    refine ⟨hnd, fun i j => (hm i j).trans ?_⟩
    refine and_congr_right fun hi => and_congr_right fun hj => and_congr_right fun _ =>
      and_congr_right fun _ => ⟨fun hd => ?_, fun hc => ?_⟩
    · obtain ⟨k, hk⟩ := (dist_ortho hb).image (A.pos i) (A.pos j)
      rw [hk] at hd
      exact ⟨k, hd⟩
    · exact exact_ortho hb cutoff _ _ (hrel.unit i hi) (hrel.unit j hj) hc
  obtain ⟨g1, g2⟩ := pair_list_exact (geo_ortho hb) (dist_ortho hb) hs ha hrun masked atomCap
    pairCap h1 h2 st
  refine ⟨fun st' h => ?_, fun h => ?_⟩
  · obtain ⟨P, e, hP⟩ := g1 st' h
    exact ⟨P, e, key P hP⟩
  · rcases g2 h with h | ⟨P, hP, hlt⟩
    · exact Or.inl h
    · exact Or.inr ⟨P, key P hP, hlt⟩

/-- **C05 (monoclinic).**  The same, provided the list cutoff does not exceed
half the minimum plane spacing; beyond this the returned distances are not
always those of the closest image (`C26_mono_not_global_minimum`). -/
theorem C05_pair_list_mono {b : Mono} (hb : b.Reach) {cap : Nat} {cutoff : ℝ} {s0 cl : CL}
    (hs : setup b.lengths cutoff = some s0) (hcut : cutoff ≤ b.minLength / 2) {ops : List Op}
    (ha : AllowedHist b.toGen cap s0.n ⟨∅, fun _ _ => 0⟩ ops)
    (hrun : run b.toGen cap s0 ops = .ok cl)
    (masked : Nat → Nat → Prop) (atomCap pairCap : ℤ) (h1 : 0 ≤ atomCap) (h2 : 0 ≤ pairCap)
    (st : PL) :
    let A := Abs.run ops
    let c : Ctx := ⟨A.pos, masked, b.distanceSq, cutoff, atomCap, pairCap⟩
    let R := fun i j => ¬ masked i j ∧ Closer b.bravais cutoff (A.pos i) (A.pos j)
    (∀ st', build c cl st = some st' →
      ∃ P, st'.pairs = P.map (fun x => (some x.1, some x.2)) ∧ ExactlyOnce A.S R P) ∧
    (build c cl st = none →
      atomCap < A.S.card ∨ ∃ P, ExactlyOnce A.S R P ∧ pairCap < P.length) := by
  intro A c R
  have hc0 : 0 < cutoff := (setup_isSome b.lengths cutoff).1 ⟨s0, hs⟩
  have key : ∀ P, ExactlyOnce A.S
      (fun i j => ¬ masked i j ∧ b.distanceSq (A.pos i) (A.pos j) < cutoff ^ 2) P →
      ExactlyOnce A.S R P := by
    rintro P ⟨hnd, hm⟩
    obtain ⟨_, _, _, hrel⟩ := run_rel (A := ⟨∅, fun _ _ => 0⟩) (rel_setup hs _) ha
    refine ⟨hnd, fun i j => (hm i j).trans ?_⟩
    refine and_congr_right fun hi => and_congr_right fun hj => and_congr_right fun _ =>
      and_congr_right fun _ => ⟨fun hd => ?_, fun hc => ?_⟩
    · obtain ⟨k, hk⟩ := (dist_mono hb).image (A.pos i) (A.pos j)
      rw [hk] at hd
      exact ⟨k, hd⟩
    · exact exact_mono hb hc0.le hcut _ _ (hrel.unit i hi) (hrel.unit j hj) hc
  obtain ⟨g1, g2⟩ := pair_list_exact (geo_mono hb) (dist_mono hb) hs ha hrun masked atomCap
    pairCap h1 h2 st
  refine ⟨fun st' h => ?_, fun h => ?_⟩
  · obtain ⟨P, e, hP⟩ := g1 st' h
    exact ⟨P, e, key P hP⟩
  · rcases g2 h with h | ⟨P, hP, hlt⟩
    · exact Or.inl h
    · exact Or.inr ⟨P, key P hP, hlt⟩

/-! ## C06 -/

/-- Generic form of C06. -/
theorem current_sound {gen : Vec → Vec} {lengths : Vec} {bravais : Fin 3 → Vec}
    {dsq : Vec → Vec → ℝ} (geo : Geo gen lengths bravais) (dist : Dist bravais dsq)
    {cap : Nat} {rc skin : ℝ} (hrc : 0 ≤ rc) (hskin : 0 < skin)
    (hexact : ExactBelow gen bravais dsq (rc + skin)) {s0 cl : CL}
    (hs : setup lengths (rc + skin) = some s0) {ops : List Op}
    (ha : AllowedHist gen cap s0.n ⟨∅, fun _ _ => 0⟩ ops) (hrun : run gen cap s0 ops = .ok cl)
    (masked : Nat → Nat → Prop) (atomCap pairCap : ℤ) (h1 : 0 ≤ atomCap) (h2 : 0 ≤ pairCap)
    (st st' : PL)
    (hbuild : build ⟨(Abs.run ops).pos, masked, dsq, rc + skin, atomCap, pairCap⟩ cl st
      = some st')
    (pos : Nat → Vec) (hcur : st'.isCurrent dsq skin atomCap pos)
    (i j : Nat) (hi : i ∈ (Abs.run ops).S) (hj : j ∈ (Abs.run ops).S) (hij : i < j)
    (hm : ¬ masked i j) (hclose : Closer bravais rc (pos i) (pos j)) :
    (some i, some j) ∈ st'.pairs := by
  set A := Abs.run ops with hA
  set c : Ctx := ⟨A.pos, masked, dsq, rc + skin, atomCap, pairCap⟩ with hc
  obtain ⟨hex, hnd, hmem⟩ := allPairs_exact geo dist hs ha hrun c rfl rfl rfl
  obtain ⟨hok, _⟩ := build_spec (c := c) (cl := cl) st h1 h2
  have hJ := (hok st' hbuild).2
  rw [hJ.pairs_eq, List.mem_map]
  refine ⟨(i, j), (hex.2 i j).2 ⟨hi, hj, hij, hm, ?_⟩, rfl⟩
  obtain ⟨_, _, _, hrel⟩ := run_rel (A := ⟨∅, fun _ _ => 0⟩) (rel_setup hs _) ha
  refine hexact _ _ (hrel.unit i hi) (hrel.unit j hj) ?_
  -- displacements since the list was built
  have hdisp : ∀ a ∈ A.S, ∃ k, normSq (pos a - A.pos a + latComb bravais k) ≤ (skin / 2) ^ 2 := by
    intro a haS
    obtain ⟨ip, hip, e1, e2⟩ := hJ.recd a ((hmem a).2 haS)
    obtain ⟨a', e3, hle⟩ := hcur.2 ip hip
    rw [e1] at e3
    cases e3
    rw [e2] at hle
    obtain ⟨k, hk⟩ := dist.image (pos a) (A.pos a)
    refine ⟨k, ?_⟩
    rw [← hk]
    calc dsq (pos a) (A.pos a) ≤ 0.25 * skin * skin := hle
      _ = (skin / 2) ^ 2 := by ring
  obtain ⟨ki, hki⟩ := hdisp i hi
  obtain ⟨kj, hkj⟩ := hdisp j hj
  obtain ⟨k, hk⟩ := hclose
  refine ⟨k + (-ki + kj), ?_⟩
  have e : c.pos i - c.pos j + latComb bravais (k + (-ki + kj))
      = (pos i - pos j + latComb bravais k) + -(pos i - A.pos i + latComb bravais ki)
        + (pos j - A.pos j + latComb bravais kj) := by
    rw [latComb_add, latComb_add, latComb_neg]
    funext x
    simp only [Pi.add_apply, Pi.sub_apply, Pi.neg_apply, hc]
    ring
  rw [e]
  have hs2 : 0 ≤ skin / 2 := by linarith
  have s1 := normSq_add_lt hrc hs2 hk (v := -(pos i - A.pos i + latComb bravais ki))
    (by rw [normSq_neg]; exact hki)
  have s2 := normSq_add_lt (by linarith) hs2 s1 hkj
  calc _ < (rc + skin / 2 + skin / 2) ^ 2 := s2
    _ = (rc + skin) ^ 2 := by ring

/-- **C06 (orthorhombic, tetragonal, cubic).**  After a build, however the atoms
have moved since (in one or many steps, across periodic boundaries, wrapped or
not): if the list reports that it is current then every unmasked pair with a
periodic image closer than the potential cutoff is on the list. -/
theorem C06_current_sound_ortho {b : Ortho} (hb : b.Reach) {cap : Nat} {rc skin : ℝ}
    (hrc : 0 ≤ rc) (hskin : 0 < skin) {s0 cl : CL} (hs : setup b.lengths (rc + skin) = some s0)
    {ops : List Op} (ha : AllowedHist b.toGen cap s0.n ⟨∅, fun _ _ => 0⟩ ops)
    (hrun : run b.toGen cap s0 ops = .ok cl)
    (masked : Nat → Nat → Prop) (atomCap pairCap : ℤ) (h1 : 0 ≤ atomCap) (h2 : 0 ≤ pairCap)
    (st st' : PL)
    (hbuild : build ⟨(Abs.run ops).pos, masked, b.distanceSq, rc + skin, atomCap, pairCap⟩ cl st
      = some st')
    (pos : Nat → Vec) (hcur : st'.isCurrent b.distanceSq skin atomCap pos)
    (i j : Nat) (hi : i ∈ (Abs.run ops).S) (hj : j ∈ (Abs.run ops).S) (hij : i < j)
    (hm : ¬ masked i j) (hclose : Closer b.bravais rc (pos i) (pos j)) :
    (some i, some j) ∈ st'.pairs :=
  current_sound (geo_ortho hb) (dist_ortho hb) hrc hskin (exact_ortho hb _) hs ha hrun masked
    atomCap pairCap h1 h2 st st' hbuild pos hcur i j hi hj hij hm hclose

/-- **C06 (monoclinic).**  The same if the list cutoff is at most half the
minimum plane spacing. -/
theorem C06_current_sound_mono {b : Mono} (hb : b.Reach) {cap : Nat} {rc skin : ℝ}
    (hrc : 0 ≤ rc) (hskin : 0 < skin) (hcut : rc + skin ≤ b.minLength / 2) {s0 cl : CL}
    (hs : setup b.lengths (rc + skin) = some s0)
    {ops : List Op} (ha : AllowedHist b.toGen cap s0.n ⟨∅, fun _ _ => 0⟩ ops)
    (hrun : run b.toGen cap s0 ops = .ok cl)
    (masked : Nat → Nat → Prop) (atomCap pairCap : ℤ) (h1 : 0 ≤ atomCap) (h2 : 0 ≤ pairCap)
    (st st' : PL)
    (hbuild : build ⟨(Abs.run ops).pos, masked, b.distanceSq, rc + skin, atomCap, pairCap⟩ cl st
      = some st')
    (pos : Nat → Vec) (hcur : st'.isCurrent b.distanceSq skin atomCap pos)
    (i j : Nat) (hi : i ∈ (Abs.run ops).S) (hj : j ∈ (Abs.run ops).S) (hij : i < j)
    (hm : ¬ masked i j) (hclose : Closer b.bravais rc (pos i) (pos j)) :
    (some i, some j) ∈ st'.pairs :=
  current_sound (geo_mono hb) (dist_mono hb) hrc hskin (exact_mono hb (by linarith) hcut) hs ha
    hrun masked atomCap pairCap h1 h2 st st' hbuild pos hcur i j hi hj hij hm hclose

/-- **C06, non-vacuity.**  Immediately after a build the list reports that it is
current. -/
theorem C06_fresh_current {bravais : Fin 3 → Vec} {dsq : Vec → Vec → ℝ}
    (dist : Dist bravais dsq) (c : Ctx) (cl : CL) (st st' : PL)
    (h1 : 0 ≤ c.atomCap) (h2 : 0 ≤ c.pairCap) (skin : ℝ) (h : build c cl st = some st') :
    st'.isCurrent dsq skin c.atomCap c.pos := by
  obtain ⟨hne, hJ⟩ := (build_spec (c := c) (cl := cl) st h1 h2).1 st' h
  refine ⟨hne, fun ip hip => ?_⟩
  obtain ⟨a, _, e1, e2⟩ := hJ.tot ip hip
  refine ⟨a, e1, ?_⟩
  rw [e2, dist.self]
  nlinarith [mul_self_nonneg skin]

/-- **C06, limit of validity.**  `clear()` (and `setup()`) empty the list but do
not reset the build counter: a list that has ever been built and is then cleared
reports itself current for *all* positions although it contains no pair.  The
guarantee of C06 therefore needs a `build` after the last `clear`/`setup`. -/
theorem C06_cleared_list_reports_current (st : PL) (hb : st.builds ≠ 0) (atomCap : ℤ)
    (dsq : Vec → Vec → ℝ) (skin : ℝ) (pos : Nat → Vec) :
    (st.reset atomCap).isCurrent dsq skin atomCap pos ∧ (st.reset atomCap).pairs = [] := by
  refine ⟨⟨hb, ?_⟩, rfl⟩
  intro ip hip
  simp only [PL.reset] at hip
  omega

/-! ## Non-vacuity -/

/-- Two atoms on opposite sides of a periodic boundary of the unit cube, cutoff
1/4: whatever the previous state of the list, `build` succeeds with room for two
atoms and one pair, and the list then holds exactly the pair of the two atoms;
it is current and contains the pair required by C06 for `rc = skin = 1/8`. -/
example (st : PL) : ∃ s0 cl st',
    setup Ortho.default.lengths (1/8 + 1/8) = some s0 ∧
    run Ortho.default.toGen 61 s0 [.add 0 ![1/20, 1/2, 1/2], .add 1 ![19/20, 1/2, 1/2]] = .ok cl ∧
    build ⟨(Abs.run [.add 0 ![1/20, 1/2, 1/2], .add 1 ![19/20, 1/2, 1/2]]).pos, fun _ _ => False,
      Ortho.default.distanceSq, 1/8 + 1/8, 2, 1⟩ cl st = some st' ∧
    st'.pairs = [(some 0, some 1)] := by
  have hb : Ortho.default.Reach := .default
  obtain ⟨s0, hs⟩ := (setup_isSome Ortho.default.lengths (1/8 + 1/8)).2 (by norm_num)
  have ha : AllowedHist Ortho.default.toGen 61 s0.n ⟨∅, fun _ _ => 0⟩
      [.add 0 ![1/20, 1/2, 1/2], .add 1 ![19/20, 1/2, 1/2]] := by
    have hu : ∀ r : Vec, (∀ i, 0 ≤ r i ∧ r i < 1) → InUnit (Ortho.default.toGen r) := by
      intro r h i
      simpa [Ortho.toGen, Ortho.default] using h i
    refine ⟨⟨by simp, hu _ ?_⟩, roomy_of_few (by simp [Abs.step]),
      ⟨by simp [Abs.step], hu _ ?_⟩, roomy_of_few ?_, trivial⟩
    all_goals first
      | (intro i; fin_cases i <;> norm_num)
      | (simp only [Abs.step]; decide)
  obtain ⟨cl, hrun, _⟩ := C04_cell_list_tracks _ _ _ _ s0 hs _ ha
  obtain ⟨g1, g2⟩ := C05_pair_list_ortho hb hs ha hrun (fun _ _ => False) 2 1 (by norm_num)
    (by norm_num) st
  have hS : (Abs.run [.add 0 ![1/20, 1/2, 1/2], .add 1 ![19/20, 1/2, 1/2]]).S = {0, 1} := by
    simp only [Abs.run, List.foldl, Abs.step]; decide
  rw [hS] at g1 g2
  have hP : ∀ P R, ExactlyOnce {0, 1} R P → ∀ x ∈ P, x = (0, 1) := by
    rintro P R ⟨_, h⟩ ⟨i, j⟩ hx
    obtain ⟨hi, hj, hij, _⟩ := (h i j).1 hx
    simp only [Finset.mem_insert, Finset.mem_singleton] at hi hj
    have : i = 0 ∧ j = 1 := by omega
    rw [this.1, this.2]
  have hP1 : ∀ P R, ExactlyOnce {0, 1} R P → P.length ≤ 1 := by
    intro P R h
    have h' := hP P R h
    have hnd := h.1
    match P, h', hnd with
    | [], _, _ => simp
    | [_], _, _ => simp
    | x :: y :: l, h', hnd =>
      have e1 := h' x (by simp)
      have e2 := h' y (by simp)
      simp [e1, e2] at hnd
  cases hbd : build ⟨(Abs.run [.add 0 ![1/20, 1/2, 1/2], .add 1 ![19/20, 1/2, 1/2]]).pos,
      fun _ _ => False, Ortho.default.distanceSq, 1/8 + 1/8, 2, 1⟩ cl st with
  | none =>
    rcases g2 hbd with h | ⟨P, h, hlt⟩
    · simp at h
    · have := hP1 P _ h
      omega
  | some st' =>
    refine ⟨s0, cl, st', hs, hrun, hbd, ?_⟩
    obtain ⟨P, e, h⟩ := g1 st' hbd
    have hmem : (0, 1) ∈ P := by
      refine (h.2 0 1).2 ⟨by simp, by simp, by norm_num, by simp, ![1, 0, 0], ?_⟩
      simp [normSq, latComb, Ortho.default, setc, Abs.run, Abs.step]
      norm_num
    have hlen := hP1 P _ h
    match P, hmem, hlen with
    | [x], hmem, _ =>
      simp only [List.mem_singleton] at hmem
      rw [e, ← hmem]
      rfl
    | x :: y :: l, _, hlen => simp at hlen

end Verif.McPairList
