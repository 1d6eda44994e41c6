import Verif.DdExchange.GroupWrong

/-! A concrete system with bonds, and an angle that is lost (C63). -/

set_option autoImplicit false

namespace Verif.DdExchange

open Verif.Boundary Verif.DdChem Verif.Cpp

/-- Grid with 3 × 2 × 1 processors. -/
def grid321 : Fin 3 → ℕ := ![3, 2, 1]

/-- Processor (0, 0, 0). -/
def procS : Proc grid321 := fun i => ⟨0, by fin_cases i <;> decide⟩
/-- Processor (1, 0, 0). -/
def procQ : Proc grid321 := fun i => ⟨if i = 0 then 1 else 0, by fin_cases i <;> decide⟩
/-- Processor (1, 1, 0). -/
def procR : Proc grid321 := fun i => ⟨if i = 2 then 0 else 1, by fin_cases i <;> decide⟩

/-- Slab of width 1/20. -/
noncomputable def slab20 : Vec := fun _ => 1 / 20

/-- Positions of three atoms of a chain 0 - 1 - 2. -/
noncomputable def upos (k : ℕ) : Vec := fun i =>
  if i = 2 then 1 / 2 else if i = 1 then (if k = 0 then 47 / 100 else if k = 1 then 48 / 100 else 49 / 100)
  else (if k = 0 then 30 / 100 else if k = 1 then 34 / 100 else 40 / 100)

theorem up_x (k : ℕ) : upos k 0 = if k = 0 then 30 / 100 else if k = 1 then 34 / 100 else 40 / 100 := by
  unfold upos; rw [if_neg (by decide), if_neg (by decide)]
theorem up_y (k : ℕ) : upos k 1 = if k = 0 then 47 / 100 else if k = 1 then 48 / 100 else 49 / 100 := by
  unfold upos; rw [if_neg (by decide), if_pos rfl]
theorem up_z (k : ℕ) : upos k 2 = 1 / 2 := by
  unfold upos; rw [if_pos rfl]

/-- Atom `k` of the chain. -/
noncomputable def chainAtom (k : ℕ) : Atom ℕ := ⟨k, upos k, Plan.mk 0⟩

/-- Atoms 0 and 1 are stored on `procS`, which atom 1 has left towards `procQ`; atom 2 is stored on
`procR`, which it has left towards `procQ`. -/
noncomputable def chain : List (Proc grid321 × Atom ℕ) :=
  [(procS, chainAtom 0), (procS, chainAtom 1), (procR, chainAtom 2)]

theorem mem_chain {c : Proc grid321 × Atom ℕ} (h : c ∈ chain) :
    c = (procS, chainAtom 0) ∨ c = (procS, chainAtom 1) ∨ c = (procR, chainAtom 2) := by
  simpa [chain] using h

theorem bS (i : Fin 3) : bound procS i 0 = 0 ∧ bound procS i 1 = if i = 0 then 1 / 3 else if i = 1 then 1 / 2 else 1 := by
  fin_cases i <;> simp [bound, procS, grid321]
theorem bR (i : Fin 3) : bound procR i 0 = (if i = 0 then 1 / 3 else if i = 1 then 1 / 2 else 0) ∧
    bound procR i 1 = if i = 0 then 2 / 3 else 1 := by
  fin_cases i <;> simp [bound, procR, grid321] <;> norm_num

theorem chain_inSlab : ∀ c ∈ chain, InSlab slab20 c.1 c.2.pos ∧ ∀ i,
    bound c.1 i 0 - (1 / (grid321 i : ℝ) - slab20 i) ≤ c.2.pos i ∧
    c.2.pos i ≤ bound c.1 i 1 + (1 / (grid321 i : ℝ) - slab20 i) := by
  intro c hc
  have g0 : (grid321 0 : ℝ) = 3 := by norm_num [grid321]
  have g1 : (grid321 1 : ℝ) = 2 := by norm_num [grid321]
  have g2 : (grid321 2 : ℝ) = 1 := by
    have : grid321 2 = 1 := rfl
    rw [this]; norm_num
  rcases mem_chain hc with rfl | rfl | rfl
  · constructor <;> intro i <;> rw [(bS i).1, (bS i).2] <;> fin_cases i <;>
      simp [chainAtom, upos, slab20, g0, g1, g2] <;> norm_num
  · constructor <;> intro i <;> rw [(bS i).1, (bS i).2] <;> fin_cases i <;>
      simp [chainAtom, upos, slab20, g0, g1, g2] <;> norm_num
  · constructor <;> intro i <;> rw [(bR i).1, (bR i).2] <;> fin_cases i <;>
      simp [chainAtom, upos, slab20, g0, g1, g2] <;> norm_num

theorem slab20_ok : SlabOK grid321 slab20 := by
  intro i
  fin_cases i <;> simp [slab20, grid321] <;> norm_num

theorem chain_size : ∀ x y : ℕ, ∀ i, 1 < grid321 i → |upos x i - upos y i| < 1 / (grid321 i : ℝ) - slab20 i := by
  intro x y i hi
  have g0 : (grid321 0 : ℝ) = 3 := by norm_num [grid321]
  have g1 : (grid321 1 : ℝ) = 2 := by norm_num [grid321]
  fin_cases i
  · have h : ∀ k, 30 / 100 ≤ upos k 0 ∧ upos k 0 ≤ 40 / 100 := by
      intro k; rw [up_x]; split
      · norm_num
      · split <;> norm_num
    change |upos x 0 - upos y 0| < 1 / (grid321 0 : ℝ) - slab20 0
    rw [g0, abs_lt]
    simp only [slab20]
    constructor <;> linarith [(h x).1, (h x).2, (h y).1, (h y).2]
  · have h : ∀ k, 47 / 100 ≤ upos k 1 ∧ upos k 1 ≤ 49 / 100 := by
      intro k; rw [up_y]; split
      · norm_num
      · split <;> norm_num
    change |upos x 1 - upos y 1| < 1 / (grid321 1 : ℝ) - slab20 1
    rw [g1, abs_lt]
    simp only [slab20]
    constructor <;> linarith [(h x).1, (h x).2, (h y).1, (h y).2]
  · simp [grid321] at hi

theorem chain_pos : ∀ c ∈ chain, c.2.pos = upos c.2.data := by
  intro c hc
  rcases mem_chain hc with rfl | rfl | rfl <;> rfl

theorem chain_ready (bodies : List (Body ℕ ℕ)) (hb : (bodies.map (·.1)).Nodup)
    (hx : ∀ b ∈ bodies, ∀ x ∈ b.2.2, x = 0 ∨ x = 1 ∨ x = 2) : Ready {b | b ∈ bodies} (mkState chain bodies upos) := by
  refine mkState_ready chain bodies upos hb (by simp [chain, chainAtom]) ?_
  intro b hb x hxb
  rcases hx b hb x hxb with rfl | rfl | rfl
  · exact ⟨(procS, chainAtom 0), by simp [chain], rfl⟩
  · exact ⟨(procS, chainAtom 1), by simp [chain], rfl⟩
  · exact ⟨(procR, chainAtom 2), by simp [chain], rfl⟩

/-- Bonds 0 - 1 and 1 - 2. -/
def bonds : List (Body ℕ ℕ) := [(0, 0, [0, 1]), (1, 0, [1, 2])]

/-- The hypotheses of `C63_ownership`, `C63_complete` and `C63_image` hold for the bonds of the chain,
two atoms of which move to another processor. -/
theorem chain_bonds : Ready {b | b ∈ bonds} (mkState chain bonds upos) ∧
    Near slab20 {b | b ∈ bonds} (mkState chain bonds upos) ∧
    Leaves (mkState chain bonds upos) 1 ∧ Leaves (mkState chain bonds upos) 2 := by
  refine ⟨chain_ready bonds (by simp [bonds]) ?_, ⟨slab20_ok, ?_, ?_, ?_⟩, ?_, ?_⟩
  · intro b hb x hx
    simp only [bonds, List.mem_cons, List.not_mem_nil, or_false] at hb
    rcases hb with rfl | rfl <;> simp at hx <;> omega
  · intro p a ha
    exact (chain_inSlab (p, a) (mem_atomsOf.1 ha)).1
  · intro p a ha
    exact (chain_inSlab (p, a) (mem_atomsOf.1 ha)).2
  · intro b hb
    refine ⟨upos, mkState_compact (fun i => (slab20_ok i).1) chain bonds upos chain_pos b
      (fun x _ y _ i hi => chain_size x y i hi) ?_⟩
    simp only [bonds, List.mem_cons, List.not_mem_nil, or_false, Set.mem_ofPred_eq] at hb
    rcases hb with rfl | rfl
    · exact turn_of_pair (v := 0) (w := 1) rfl
    · exact turn_of_pair (v := 1) (w := 2) rfl
  · refine ⟨procS, chainAtom 1, mem_atomsOf.2 (by simp [chain]), rfl, 0, by decide, Or.inr ?_⟩
    rw [(bS 0).2]
    change _ < upos 1 0
    rw [up_x]
    norm_num
  · refine ⟨procR, chainAtom 2, mem_atomsOf.2 (by simp [chain]), rfl, 1, by decide, Or.inl ?_⟩
    rw [(bR 1).1]
    change upos 2 1 < _
    rw [up_y]
    norm_num

/-! ### The angle that is lost -/

/-- Angle 0 - 1 - 2. -/
def angle : List (Body ℕ ℕ) := [(0, 0, [0, 1, 2])]

/-- State of the chain with the angle. -/
noncomputable def angleState : Proc grid321 → PState ℕ ℕ := mkState chain angle upos

theorem angle_ready : Ready {b | b ∈ angle} angleState := by
  refine chain_ready angle (by simp [angle]) ?_
  intro b hb x hx
  simp only [angle, List.mem_cons, List.not_mem_nil, or_false] at hb
  subst hb
  simpa using hx

/-- Planned state. -/
noncomputable def angle0 : Proc grid321 → PState ℕ ℕ := fun p => planState slab20 p (angleState p)

/-- Planned atom. -/
noncomputable def planned (p : Proc grid321) (k : ℕ) : Atom ℕ := (replan slab20 (p, chainAtom k)).2

theorem mem_angle0 {p : Proc grid321} {a : Atom ℕ} (h : a ∈ (angle0 p).base.atoms) :
    (p = procS ∧ a = planned procS 0) ∨ (p = procS ∧ a = planned procS 1) ∨ (p = procR ∧ a = planned procR 2) := by
  simp only [angle0, planState, planAll, List.mem_map] at h
  obtain ⟨b, hb, rfl⟩ := h
  have hb' : b ∈ atomsOf chain p := hb
  rcases mem_chain (mem_atomsOf.1 hb') with h | h | h <;> obtain ⟨rfl, rfl⟩ := Prod.mk.inj h
  · exact Or.inl ⟨rfl, rfl⟩
  · exact Or.inr (Or.inl ⟨rfl, rfl⟩)
  · exact Or.inr (Or.inr ⟨rfl, rfl⟩)

theorem angle0_mem {p : Proc grid321} {k : ℕ} (h : (p, chainAtom k) ∈ chain) : planned p k ∈ (angle0 p).base.atoms := by
  simp only [angle0, planState, planAll, List.mem_map]
  exact ⟨chainAtom k, mem_atomsOf.2 h, rfl⟩

/-- Exchange flags. -/
theorem exch0 (i : Fin 3) (j : Fin 2) : (planned procS 0).plan.exchange i j = false := by
  rw [Bool.eq_false_iff, planned]
  change ¬ (makePlan slab20 procS (upos 0) _).exchange i j = true
  rw [makePlan_exchange]
  unfold ECond
  dsimp only
  rw [(bS i).1, (bS i).2]
  fin_cases i <;> fin_cases j <;> simp [up_x, up_y, up_z] <;> norm_num
theorem exch1 (i : Fin 3) (j : Fin 2) : (planned procS 1).plan.exchange i j = decide (i = 0 ∧ j = 1) := by
  rw [Bool.eq_iff_iff, planned]
  change (makePlan slab20 procS (upos 1) _).exchange i j = true ↔ _
  rw [makePlan_exchange]
  unfold ECond
  dsimp only
  rw [(bS i).1, (bS i).2]
  fin_cases i <;> fin_cases j <;> simp [up_x, up_y, up_z] <;> norm_num
theorem exch2 (i : Fin 3) (j : Fin 2) : (planned procR 2).plan.exchange i j = decide (i = 1 ∧ j = 0) := by
  rw [Bool.eq_iff_iff, planned]
  change (makePlan slab20 procR (upos 2) _).exchange i j = true ↔ _
  rw [makePlan_exchange]
  unfold ECond
  dsimp only
  rw [(bR i).1, (bR i).2]
  fin_cases i <;> fin_cases j <;> simp [up_x, up_y, up_z] <;> norm_num

/-- Ghosts are added after the local atoms. -/
theorem exchangeG_prefix {N : Fin 3 → ℕ} {K D : Type} [DecidableEq K] [DecidableEq D] (slab : Vec)
    (G : Proc N → PState K D) (q : Proc N) :
    ∃ gh, (exchangeG slab G).atoms q = (exchangeAtomsG slab G q).base.atoms ++ gh := by
  unfold exchangeG exchangeGhosts
  exact foldl_atoms dirs _ q

theorem angle_mem {g : Grp ℕ ℕ} {all : Set (Body ℕ ℕ)} (hall : all = {b | b ∈ angle}) {atoms : List (Atom ℕ)}
    {gs : List (Grp ℕ ℕ)} (h : Stores all atoms gs) (hg : g ∈ gs) : g.body = (0, 0, [0, 1, 2]) := by
  have := ((h.mem g.body).1 ⟨g, hg, rfl⟩).1
  rw [hall] at this
  simpa [angle] using this

set_option maxHeartbeats 400000 in
/-- **C63, negation.** A group of three atoms can be lost: an angle 0 - 1 - 2, all atoms of which have
moved less than a slab width, with pointers to the correct images and much smaller than a domain. Atom
1 moves from `procS` to `procQ`, and atom 2, which is farther from the boundary between these two
processors than a slab width, from `procR` to `procQ`. `procQ` keeps the flags that it received with
atom 1, which are those of `procS` and do not mark the direction back to `procS`; the flags received
with atom 2 are discarded. No ghost of atom 2 is sent to `procS`, where atom 0 remains: `findGhosts`
throws an exception ("Incomplete group after search for ghosts"). -/
theorem C63_violated : Ready {b | b ∈ angle} angleState ∧ SlabOK grid321 slab20 ∧
    (∀ p, ∀ a ∈ (angleState p).base.atoms, InSlab slab20 p a.pos ∧ ∀ i,
      bound p i 0 - (1 / (grid321 i : ℝ) - slab20 i) ≤ a.pos i ∧
      a.pos i ≤ bound p i 1 + (1 / (grid321 i : ℝ) - slab20 i)) ∧
    (∀ p, ∀ a ∈ (angleState p).base.atoms, a.pos = upos a.data) ∧
    (∀ p, ∀ g ∈ (angleState p).groups, g.complete = true ∧ ∀ x y, g.ptr x = some (.ghost y) → y = upos x) ∧
    (∀ x y i, 1 < grid321 i → |upos x i - upos y i| < 1 / (grid321 i : ℝ) - slab20 i) ∧
    finalGroups slab20 angleState procS = .throw := by
  classical
  refine ⟨angle_ready, slab20_ok, ?_, ?_, ?_, chain_size, ?_⟩
  · intro p a ha
    exact chain_inSlab (p, a) (mem_atomsOf.1 ha)
  · intro p a ha
    exact chain_pos (p, a) (mem_atomsOf.1 ha)
  · intro p g hg
    refine ⟨mkState_complete hg, ?_⟩
    intro x y hy
    simp only [angleState, mkState, List.mem_map] at hg
    obtain ⟨b, -, rfl⟩ := hg
    dsimp only at hy
    split at hy
    · simp at hy
    · simp only [Option.some.injEq, Ref.ghost.injEq] at hy
      exact hy.symm
  -- stages
  have hR := angle_ready
  have h0 := prov_start (distinct_planState slab20 hR.nodup) (fun p => stores_planState slab20 p (angleState p) (hR.stores p))
  have hex : ∀ p, ∀ a ∈ (planState slab20 p (angleState p)).base.atoms, Excl a.plan := fun p => planAll_excl slab20 p _
  have h1 := prov_step hR.ids hex h0 (0, 0) (by decide) (by decide) (by decide)
  have h2 := prov_step hR.ids hex h1 (0, 1) (by decide) (by decide) (by decide)
  have h3 := prov_step hR.ids hex h2 (1, 0) (by decide) (by decide) (by decide)
  have h4 := prov_step hR.ids hex h3 (1, 1) (by decide) (by decide) (by decide)
  have h5 := prov_step hR.ids hex h4 (2, 0) (by decide) (by decide) (by decide)
  have h6 := prov_step hR.ids hex h5 (2, 1) (by decide) (by decide) (by decide)
  have m0 : planned procS 0 ∈ (angle0 procS).base.atoms := angle0_mem (by simp [chain])
  have m1 : planned procS 1 ∈ (angle0 procS).base.atoms := angle0_mem (by simp [chain])
  -- the group on `procS` before the exchange
  obtain ⟨gs, hgs, hgb⟩ : ∃ g ∈ (angleState procS).groups, g.body = (0, 0, [0, 1, 2]) :=
    ((hR.stores procS).mem _).2 ⟨by simp [angle], 0, by simp, chainAtom 0, mem_atomsOf.2 (by simp [chain]), rfl⟩
  have hids : gs.ids = [0, 1, 2] := congrArg (fun b => b.2.2) hgb
  obtain ⟨P, hP⟩ : ∃ P, P = spanPlan slab20 procS (angle0 procS).base.atoms gs := ⟨_, rfl⟩
  have hP0 : P.ghost 0 0 = false := by
    rw [hP]
    refine spanPlan_noflag slab20 procS _ gs (0, 0) (by decide) (mkState_complete hgs) ?_
    unfold spans
    rw [Bool.and_eq_true, not_and]
    intro ho
    exfalso
    rw [List.any_eq_true] at ho
    obtain ⟨x, hx, hox⟩ := ho
    have hnd : ((angle0 procS).base.atoms.map (·.data)).Nodup := distinct_of_located h0.distinct procS
    unfold isOut at hox
    cases hp : gs.ptr x with
    | none => rw [hp] at hox; simp at hox
    | some r =>
      cases r with
      | loc =>
        rw [hp] at hox
        dsimp only at hox
        rw [exch_iff hnd] at hox
        obtain ⟨a, ha, -, he⟩ := hox
        rcases mem_angle0 ha with ⟨-, rfl⟩ | ⟨-, rfl⟩ | ⟨h, -⟩
        · rw [exch0] at he; simp at he
        · rw [exch1] at he; simp at he
        · exact absurd h (by decide)
      | ghost y =>
        rw [hp] at hox
        have hy : y = upos x := by
          have hgs' := hgs
          simp only [angleState, mkState, List.mem_map] at hgs'
          obtain ⟨b, -, rfl⟩ := hgs'
          dsimp only at hp
          split at hp
          · simp at hp
          · simp only [Option.some.injEq, Ref.ghost.injEq] at hp
            exact hp.symm
        simp only [if_true, decide_eq_true_eq, inner] at hox
        rw [hy, (bS 0).1, up_x] at hox
        simp only [slab20] at hox
        split at hox
        · norm_num at hox
        · split at hox <;> norm_num at hox
  have g0 : markSpan slab20 procS (angle0 procS).base.atoms gs ∈ (angle0 procS).groups := List.mem_map_of_mem hgs
  -- transfers
  have loc1 : ∀ done : List Dir, (along done (procS, planned procS 1)).1 =
      done.foldl (fun p d => if d = (0, 1) then dest d p else p) procS := by
    intro done
    rw [along_fst]
    congr 1
    funext p d
    rw [exch1]
    have : (d.1 = 0 ∧ d.2 = 1) ↔ d = (0, 1) := by
      constructor
      · rintro ⟨e1, e2⟩; exact Prod.ext e1 e2
      · rintro rfl; exact ⟨rfl, rfl⟩
    simp only [decide_eq_true_eq, this]
  have dat1 : ∀ done : List Dir, (along done (procS, planned procS 1)).2.data = 1 := fun done => along_data _ _
  have pl1 : ∀ done : List Dir, (along done (procS, planned procS 1)).2.plan = (planned procS 1).plan :=
    fun done => along_plan _ _
  have step1 := keep_step h0 (0, 0) (q := procS) g0 (x := 0) (by change 0 ∈ gs.ids; simp [hids]) m0 rfl (by rw [exch0]; simp)
  obtain ⟨g1, hg1, hb1, hp1⟩ := step1
  have hi1 : g1.ids = [0, 1, 2] := (congrArg (fun b => b.2.2) hb1).trans hids
  have a1 := h1.image m1
  rw [(loc1 _).trans (show _ = procS by decide)] at a1
  have none1 : ∀ y ∈ g1.ids, ¬ Has (exchangeDirG (0, 0) angle0 procQ).base.atoms y := by
    rintro y - ⟨a, ha, -⟩
    obtain ⟨r, a0, ha0, hal⟩ := h1.origin ha
    have hs : (along ([] ++ [((0, 0) : Dir)]) (r, a0)).1 = r := by
      apply along_stay
      rintro d hd -
      simp only [List.nil_append, List.mem_singleton] at hd
      subst hd
      rcases mem_angle0 ha0 with ⟨-, rfl⟩ | ⟨-, rfl⟩ | ⟨-, rfl⟩
      · rw [exch0]; simp
      · rw [exch1]; simp
      · rw [exch2]; simp
    rw [hal] at hs
    rcases mem_angle0 ha0 with ⟨h, -⟩ | ⟨h, -⟩ | ⟨h, -⟩ <;> rw [h] at hs
    · exact absurd (show procQ = procS from hs) (by decide)
    · exact absurd (show procQ = procS from hs) (by decide)
    · exact absurd (show procQ = procR from hs) (by decide)
  have hsrc : source (0, 1) procQ = procS := by decide
  obtain ⟨g2, hg2, hb2, hp2⟩ := recv_step hR.ids h1 (0, 1) (by decide) (q := procQ) (m := g1)
    (by rw [hsrc]; exact hg1) (x := 1) (by simp [hi1]) (by rw [hsrc]; exact a1) (dat1 _) (by rw [pl1, exch1]; simp) none1
  have hi2 : g2.ids = [0, 1, 2] := (congrArg (fun b => b.2.2) hb2).trans hi1
  have a2 := h2.image m1
  rw [(loc1 _).trans (show _ = procQ by decide)] at a2
  obtain ⟨g3, hg3, hb3, hp3⟩ := keep_step h2 (1, 0) (q := procQ) hg2 (x := 1) (by simp [hi2])
    a2 (dat1 _) (by rw [pl1, exch1]; simp)
  have hi3 : g3.ids = [0, 1, 2] := (congrArg (fun b => b.2.2) hb3).trans hi2
  have a3 := h3.image m1
  rw [(loc1 _).trans (show _ = procQ by decide)] at a3
  obtain ⟨g4, hg4, hb4, hp4⟩ := keep_step h3 (1, 1) (q := procQ) hg3 (x := 1) (by simp [hi3])
    a3 (dat1 _) (by rw [pl1, exch1]; simp)
  have hi4 : g4.ids = [0, 1, 2] := (congrArg (fun b => b.2.2) hb4).trans hi3
  have a4 := h4.image m1
  rw [(loc1 _).trans (show _ = procQ by decide)] at a4
  obtain ⟨g5, hg5, hb5, hp5⟩ := keep_step h4 (2, 0) (q := procQ) hg4 (x := 1) (by simp [hi4])
    a4 (dat1 _) (by rw [pl1, exch1]; simp)
  have hi5 : g5.ids = [0, 1, 2] := (congrArg (fun b => b.2.2) hb5).trans hi4
  have a5 := h5.image m1
  rw [(loc1 _).trans (show _ = procQ by decide)] at a5
  obtain ⟨g6, hg6, hb6, hp6⟩ := keep_step h5 (2, 1) (q := procQ) hg5 (x := 1) (by simp [hi5])
    a5 (dat1 _) (by rw [pl1, exch1]; simp)
  have hpl : g6.plan = P := by rw [hp6, hp5, hp4, hp3, hp2, hp1, hP]; rfl
  have hg6' : g6 ∈ (transfer slab20 angleState procQ).groups := hg6
  have hst := (prov_transfer hR.ids slab20 hR.nodup hR.stores).stores
  -- atom 2 has no flag towards `procS`
  have final2 : ∀ p, ∀ a ∈ (transfer slab20 angleState p).base.atoms, a.data = 2 →
      p = procQ ∧ a.plan = (planned procR 2).plan := by
    intro p a ha hd
    obtain ⟨r, a0, ha0, hal⟩ := h6.origin ha
    have hda : a0.data = 2 := by
      have := along_data dirs (r, a0)
      rw [show along dirs (r, a0) = (p, a) from hal] at this
      exact this.symm.trans hd
    rcases mem_angle0 ha0 with ⟨-, rfl⟩ | ⟨-, rfl⟩ | ⟨rfl, rfl⟩
    · exact absurd hda (by change ¬ (0 : ℕ) = 2; decide)
    · exact absurd hda (by change ¬ (1 : ℕ) = 2; decide)
    · have e1 := along_fst dirs (procR, planned procR 2)
      have e2 := along_plan dirs (procR, planned procR 2)
      rw [show along dirs (procR, planned procR 2) = (p, a) from hal] at e1 e2
      refine ⟨?_, e2⟩
      rw [show p = _ from e1]
      simp only [dirs, List.foldl_cons, List.foldl_nil, exch2]
      decide
  have noflag : ∀ q, ∀ a ∈ (exchangeAtomsG slab20 angleState q).base.atoms, a.data = 2 →
      q = procQ ∧ a.plan.ghost 0 0 = false := by
    intro q a ha hd
    obtain ⟨c, hc, hmk⟩ := (grows_markGhosts (N := grid321) (transfer slab20 angleState q)).1.mem_right ha
    obtain ⟨rfl, -⟩ := final2 q c hc (hmk.1.symm.trans hd)
    refine ⟨rfl, ?_⟩
    by_contra hf
    rw [Bool.not_eq_false] at hf
    rcases flag_source (N := grid321) (transfer slab20 angleState procQ) (0, 0) ha hf with ⟨e, he, hed, hef⟩ | ⟨g, hg, -, hgf⟩
    · have hpe := (final2 procQ e he (hed.trans hd)).2
      rw [hpe] at hef
      change (makePlan slab20 procR (upos 2) _).ghost 0 0 = true at hef
      rw [makePlan_ghost] at hef
      unfold GCond at hef
      dsimp only at hef
      rw [(bR 0).1, (bR 0).2, up_x] at hef
      norm_num [slab20] at hef
    · have hgg : g = g6 := by
        refine List.inj_on_of_nodup_map (hst procQ).nodup hg hg6' ?_
        have e1 := angle_mem rfl (hst procQ) hg
        have e2 := angle_mem rfl (hst procQ) hg6'
        exact congrArg (fun b => b.1) (e1.trans e2.symm)
      rw [hgg, hpl] at hgf
      change P.ghost 0 0 = true at hgf
      rw [hP0] at hgf
      simp at hgf
  -- no ghost of atom 2 on `procS`
  obtain ⟨hv, hf⟩ := valid_exchangeG slab20 hR.distinct
  have absent : ¬ Has ((exchangeG slab20 angleState).atoms procS) 2 := by
    rintro ⟨z, hz, hzd⟩
    obtain ⟨q, a, ha, c0, k0, c1, k1, k2⟩ := (mem_final hv hf procS z).1 hz
    have hd : a.data = 2 := (triple_frame k0 k1 k2).1.symm.trans hzd
    obtain ⟨rfl, hno⟩ := noflag q a ha hd
    have e2 := ((expand_frame k2).2.1 0 (by decide)).1
    have e1 := ((expand_frame k1).2.1 0 (by decide)).1
    rcases mem_expand.1 k0 with rfl | ⟨hg, -⟩ | ⟨-, rfl⟩
    · rw [e1] at e2
      exact absurd (show procS 0 = procQ 0 from e2) (by decide)
    · rw [hno] at hg; simp at hg
    · rw [e1] at e2
      change procS 0 = dest (0, 1) procQ 0 at e2
      exact absurd e2 (by decide)
  -- the group of atom 0 on `procS` is incomplete
  have hloc : Has (transfer slab20 angleState procS).base.atoms 0 := by
    have hin := h6.image m0
    have e := along_stay dirs (procS, planned procS 0) (fun d _ _ => by rw [exch0]; simp)
    rw [show (along ([] ++ [((0, 0) : Dir)] ++ [(0, 1)] ++ [(1, 0)] ++ [(1, 1)] ++ [(2, 0)] ++ [(2, 1)]) (procS, planned procS 0)).1 =
      procS from e] at hin
    exact ⟨_, hin, along_data _ _⟩
  obtain ⟨g, hg, hgbody⟩ := ((hst procS).mem (0, 0, [0, 1, 2])).2 ⟨by simp [angle], 0, by simp, hloc⟩
  have hgi : g.ids = [0, 1, 2] := congrArg (fun b => b.2.2) hgbody
  obtain ⟨gh, hgh⟩ : ∃ gh, (exchangeG slab20 angleState).atoms procS =
    (exchangeAtomsG slab20 angleState procS).base.atoms ++ gh := exchangeG_prefix slab20 angleState procS
  have h2n : g.ptr 2 = none := by
    refine ((hst procS).ptr g hg 2 (by simp [hgi])).2 ?_
    intro hh
    apply absent
    obtain ⟨a, ha, hd⟩ := (has_exchangeAtomsG slab20 angleState procS 2).2 hh
    rw [hgh]
    exact ⟨a, List.mem_append_left _ ha, hd⟩
  have hnc : ¬ g.complete = true := by
    unfold Grp.complete
    rw [hgi]
    simp [h2n]
  refine findGhosts_throw _ _ hg ?_
  rw [if_neg hnc]
  have hl : look ((exchangeG slab20 angleState).atoms procS) 2 = none := by
    by_contra hne
    exact absent (look_isSome.1 (Option.isSome_iff_ne_none.2 hne))
  unfold Grp.complete
  change ¬ (g.ids.all fun x => ((findGhost ((exchangeG slab20 angleState).atoms procS) g).ptr x).isSome) = true
  rw [hgi]
  have : (findGhost ((exchangeG slab20 angleState).atoms procS) g).ptr 2 = none := by
    simp only [findGhost, h2n, hl, Option.map_none]
  simp [this]

end Verif.DdExchange
