import Verif.DdExchange.Update
import Verif.DdExchange.Send
import Verif.DdExchange.AtomProps

/-! # Properties of the exchange of ghosts and of updates (C17, C18) -/

set_option autoImplicit false

namespace Verif.DdExchange

open Verif.Boundary Verif.DdChem

variable {N : Fin 3 → ℕ} {D : Type}

/-- A position is within the slab around the domain of a processor (open region). -/
def InSlab (slab : Vec) (q : Proc N) (x : Vec) : Prop :=
  ∀ i, bound q i 0 - slab i < x i ∧ x i < bound q i 1 + slab i

/-- Slab widths are positive and not larger than a domain. -/
def SlabOK (N : Fin 3 → ℕ) (slab : Vec) : Prop := ∀ i, 0 < slab i ∧ slab i ≤ 1 / (N i : ℝ)

/-- Atoms have distinct data (for instance distinct ids). -/
def Distinct (atoms : Proc N → List (Atom D)) : Prop := ((copies atoms).map fun c => c.2.data).Nodup

theorem inSlab_iff (slab : Vec) (q : Proc N) (x : Vec) :
    InSlab slab q x ↔ ∀ i, Ext1 slab i (q i) (x i) :=
  forall_congr' fun i => (ext1_iff slab q i (x i)).symm

theorem mem_final {atoms : Proc N → List (Atom D)} {send : Proc N → Dir → List ℕ}
    (hv : Valid ⟨atoms, send, fun _ _ => []⟩) (hf : ∀ d, Full ⟨atoms, send, fun _ _ => []⟩ d)
    (q : Proc N) (b : Atom D) :
    b ∈ (exchangeGhosts atoms send).atoms q ↔ ∃ p, ∃ a ∈ atoms p, ∃ c0 ∈ expand 0 (p, a),
      ∃ c1 ∈ expand 1 c0, (q, b) ∈ expand 2 c1 := by
  rw [← mem_copies, copies_exchangeGhosts atoms send hv hf]
  simp only [Multiset.mem_bind]
  constructor
  · rintro ⟨c1, ⟨c0, ⟨⟨p, a⟩, ha, h0⟩, h1⟩, h2⟩
    exact ⟨p, a, mem_copies.1 ha, c0, h0, c1, h1, h2⟩
  · rintro ⟨p, a, ha, c0, h0, c1, h1, h2⟩
    exact ⟨c1, ⟨c0, ⟨⟨p, a⟩, mem_copies.2 ha, h0⟩, h1⟩, h2⟩

/-- **C17 for given plans, completeness.** Local atoms may be flagged for sending for any reason
(the code also flags members of incomplete groups), as long as all atoms in the slabs are flagged
and the send arrays contain the flagged atoms. Then every image of an atom in the slab around a
domain is present on the processor of the domain. -/
theorem C17_complete (slab : Vec) (hs : SlabOK N slab) (atoms : Proc N → List (Atom D))
    (send : Proc N → Dir → List ℕ) (hv : Valid ⟨atoms, send, fun _ _ => []⟩)
    (hf : ∀ d, Full ⟨atoms, send, fun _ _ => []⟩ d)
    (hc : ∀ p, ∀ a ∈ atoms p, ∀ i, Covers slab i (p, a)) :
    ∀ p, ∀ a ∈ atoms p, ∀ q y, SameImage a.pos y → InSlab slab q y →
      ∃ b ∈ (exchangeGhosts atoms send).atoms q, b.data = a.data ∧ b.pos = y := by
  rintro p a ha q y ⟨n, hn⟩ hy
  rw [inSlab_iff] at hy
  obtain ⟨c0, h0, c1, h1, ⟨q', b⟩, h2, hq, hb⟩ := triple_complete (hc p a ha) (fun i => (hs i).2) q n
    (fun i => by rw [← hn i]; exact hy i)
  simp only at hq
  subst hq
  refine ⟨b, (mem_final hv hf q' b).2 ⟨p, a, ha, c0, h0, c1, h1, h2⟩, (triple_frame h0 h1 h2).1, ?_⟩
  funext i
  rw [hn i]; exact hb i

/-- **C17 for given plans, uniqueness and soundness.** Whatever the flags, no image of an atom is
present twice on a processor, every stored atom or ghost is an image of an atom of the system,
and the local atoms come first, unchanged. -/
theorem C17_unique (atoms : Proc N → List (Atom D)) (send : Proc N → Dir → List ℕ)
    (hv : Valid ⟨atoms, send, fun _ _ => []⟩) (hf : ∀ d, Full ⟨atoms, send, fun _ _ => []⟩ d)
    (hid : Distinct atoms) :
    ∀ q, (((exchangeGhosts atoms send).atoms q).map fun b => (b.data, b.pos)).Nodup ∧
      (∃ ghosts, (exchangeGhosts atoms send).atoms q = atoms q ++ ghosts) ∧
      ∀ b ∈ (exchangeGhosts atoms send).atoms q, ∃ p, ∃ a ∈ atoms p,
        b.data = a.data ∧ SameImage a.pos b.pos := by
  intro q
  refine ⟨?_, foldl_atoms dirs _ q, ?_⟩
  · have h := copies_nodup (copies atoms) hid
    rw [← copies_exchangeGhosts atoms send hv hf] at h
    rw [copies, ← Finset.add_sum_erase _ _ (Finset.mem_univ q), Multiset.map_add,
      Multiset.nodup_add] at h
    have h1 := h.1
    rw [Multiset.map_map, Multiset.map_coe, Multiset.coe_nodup] at h1
    have e : (((exchangeGhosts atoms send).atoms q).map
        ((fun c : Proc N × Atom D => (c.1, c.2.data, c.2.pos)) ∘ Prod.mk q)) =
        (((exchangeGhosts atoms send).atoms q).map fun b => (b.data, b.pos)).map (Prod.mk q) := by
      rw [List.map_map]; rfl
    rw [e] at h1
    exact List.Nodup.of_map _ h1
  · intro b hb
    obtain ⟨p, a, ha, c0, h0, c1, h1, h2⟩ := (mem_final hv hf q b).1 hb
    obtain ⟨hd, hn⟩ := triple_frame h0 h1 h2
    exact ⟨p, a, ha, hd, fun i => (hn i).choose, fun i => (hn i).choose_spec⟩

/-! ### The complete exchange -/

/-- No atom is farther from the domain of its processor than the width of a domain minus the
width of the slab. -/
def WithinReach (slab : Vec) (G : Proc N → Local D) : Prop :=
  ∀ p, ∀ a ∈ (G p).atoms, ∀ i,
    bound p i 0 - (1 / (N i : ℝ) - slab i) ≤ a.pos i ∧
    a.pos i ≤ bound p i 1 + (1 / (N i : ℝ) - slab i)

theorem WithinReach.withinOne {slab : Vec} {G : Proc N → Local D} (h : WithinReach slab G)
    (hs : SlabOK N slab) : WithinOne G := by
  intro p a ha i
  have h1 := h p a ha i
  have h2 := (hs i).1
  constructor <;> linarith [h1.1, h1.2]

/-- The ghost flags are exact after the exchange. -/
theorem flags_exact {slab : Vec} {G : Proc N → Local D} (hs : SlabOK N slab)
    (h : WithinReach slab G) (q : Proc N) (b : Atom D) (hb : b ∈ (exchangeAtoms slab G q).atoms)
    (i : Fin 3) : Covers slab i (q, b) ∧ Tight slab i (q, b) := by
  have hm : (q, b) ∈ located (exchangeAtoms slab G) := (mem_located).2 hb
  rw [located_exchangeAtoms, Multiset.mem_map] at hm
  obtain ⟨⟨p, a⟩, ha, he⟩ := hm
  have ha' := (mem_located).1 ha
  have hcl := target_closed slab p a i (h.withinOne hs p a ha' i)
  obtain ⟨-, hplan, ht⟩ := target_spec slab p a
  obtain ⟨-, hl, hu, hin⟩ := ht i
  rw [he] at hplan
  simp only [he] at hcl hl hu hin
  have hr := h p a ha' i
  have hs' := hs i
  have hw := bound_width p i
  have hwq := bound_width q i
  have g0 : b.plan.ghost i 0 = true ↔ (bound p i 0 ≤ a.pos i ∧ a.pos i < bound p i 0 + slab i) ∨
      (bound p i 1 < a.pos i ∧ a.pos i < bound p i 1 + slab i) := by
    rw [hplan, makePlan_ghost]
    simp [GCond]
  have g1 : b.plan.ghost i 1 = true ↔ (a.pos i < bound p i 0 ∧ bound p i 0 - slab i < a.pos i) ∨
      (a.pos i ≤ bound p i 1 ∧ bound p i 1 - slab i < a.pos i) := by
    rw [hplan, makePlan_ghost]
    simp [GCond]
  have k0 : b.plan.ghost i 0 = true ↔ b.pos i < bound q i 0 + slab i := by
    rw [g0]
    by_cases c0 : a.pos i < bound p i 0
    · have := hl c0
      constructor
      · rintro (⟨h1, -⟩ | ⟨h1, -⟩) <;> linarith
      · intro h1; linarith [hr.1]
    · by_cases c1 : bound p i 1 < a.pos i
      · have := hu c1
        constructor
        · rintro (⟨-, h1⟩ | ⟨-, h1⟩) <;> linarith
        · intro h1; right; exact ⟨c1, by linarith⟩
      · obtain ⟨e1, e2⟩ := hin (not_lt.1 c0) (not_lt.1 c1)
        rw [e2, bound_congr e1]
        constructor
        · rintro (⟨-, h1⟩ | ⟨h1, -⟩)
          · exact h1
          · exact absurd h1 c1
        · intro h1; left; exact ⟨not_lt.1 c0, h1⟩
  have k1 : b.plan.ghost i 1 = true ↔ bound q i 1 - slab i < b.pos i := by
    rw [g1]
    by_cases c0 : a.pos i < bound p i 0
    · have := hl c0
      constructor
      · rintro (⟨-, h1⟩ | ⟨-, h1⟩) <;> linarith
      · intro h1; left; exact ⟨c0, by linarith⟩
    · by_cases c1 : bound p i 1 < a.pos i
      · have := hu c1
        constructor
        · rintro (⟨h1, -⟩ | ⟨h1, -⟩) <;> linarith
        · intro h1; linarith [hr.2]
      · obtain ⟨e1, e2⟩ := hin (not_lt.1 c0) (not_lt.1 c1)
        rw [e2, bound_congr e1]
        constructor
        · rintro (⟨h1, -⟩ | ⟨-, h1⟩)
          · exact absurd h1 c0
          · exact h1
        · intro h1; right; exact ⟨not_lt.1 c1, h1⟩
  exact ⟨⟨hcl.1, hcl.2, k0.2, k1.2⟩, ⟨hcl.1, hcl.2, k0.1, k1.1⟩⟩

theorem located_eq_copies (G : Proc N → Local D) : located G = copies fun q => (G q).atoms := rfl

theorem distinct_exchangeAtoms (slab : Vec) (G : Proc N → Local D)
    (hid : Distinct fun p => (G p).atoms) : Distinct fun q => (exchangeAtoms slab G q).atoms :=
  (C16_stored_once slab G hid).1

theorem distinct_local {atoms : Proc N → List (Atom D)} (hid : Distinct atoms) (q : Proc N) :
    ((atoms q).map (·.data)).Nodup := by
  rw [Distinct, copies, ← Finset.add_sum_erase _ _ (Finset.mem_univ q), Multiset.map_add,
      Multiset.nodup_add] at hid
  have h1 := hid.1
  rw [Multiset.map_map, Multiset.map_coe, Multiset.coe_nodup] at h1
  exact h1

/-- The send arrays, as indices, are valid and complete. -/
theorem resolve_ok (slab : Vec) (G : Proc N → Local D) (hid : Distinct fun p => (G p).atoms) :
    Valid (⟨fun q => (exchangeAtoms slab G q).atoms, fun q d => resolve (exchangeAtoms slab G q).atoms
      ((exchangeAtoms slab G q).send d), fun _ _ => []⟩ : GState N D) ∧
    ∀ d, Full (⟨fun q => (exchangeAtoms slab G q).atoms, fun q d => resolve (exchangeAtoms slab G q).atoms
      ((exchangeAtoms slab G q).send d), fun _ _ => []⟩ : GState N D) d := by
  classical
  have hmem : ∀ q d, ∀ x ∈ (exchangeAtoms slab G q).send d,
      x ∈ (exchangeAtoms slab G q).atoms.map (·.data) := by
    intro q d x hx
    have := (send_exchangeAtoms slab G q d).mem_iff.1 hx
    rw [List.mem_map] at this ⊢
    obtain ⟨a, ha, rfl⟩ := this
    exact ⟨a, (List.mem_filter.1 ha).1, rfl⟩
  have hnd := distinct_local (distinct_exchangeAtoms slab G hid)
  constructor
  · intro q d k hk
    simp only [resolve, List.mem_map] at hk
    obtain ⟨x, hx, rfl⟩ := hk
    have := List.idxOf_lt_length_iff.2 (hmem q d x hx)
    rw [List.length_map] at this
    convert this
  · intro d q
    set L := (exchangeAtoms slab G q).atoms with hL
    -- inverse of `data` on the local atoms
    have hinv : ∀ a ∈ L, L[(L.map (·.data)).idxOf a.data]? = some a := by
      intro a ha
      obtain ⟨k, hk, rfl⟩ := List.getElem_of_mem ha
      have h1 : (L.map (·.data))[k]'(by simpa using hk) = L[k].data := by simp
      have h2 : (L.map (·.data)).idxOf L[k].data = k := by
        rw [← h1]
        exact (hnd q).idxOf_getElem k (by simpa using hk)
      rw [h2]
      exact List.getElem?_eq_getElem hk
    have hperm := send_exchangeAtoms slab G q d
    have h1 : sel (⟨fun q => (exchangeAtoms slab G q).atoms, fun q d => resolve (exchangeAtoms slab G q).atoms
        ((exchangeAtoms slab G q).send d), fun _ _ => []⟩ : GState N D) q d =
        ((((exchangeAtoms slab G q).send d).filterMap fun x => L[(L.map (·.data)).idxOf x]? :
          List (Atom D)) : Multiset (Atom D)) := by
      simp only [sel, resolve, List.filterMap_map, ← hL, Function.comp_def]
    rw [h1]
    have h2 := (hperm.filterMap fun x => L[(L.map (·.data)).idxOf x]?)
    rw [← hL, List.filterMap_map] at h2
    have h3 : (L.filter fun a => a.plan.ghost d.1 d.2).filterMap
        ((fun x => L[(L.map (·.data)).idxOf x]?) ∘ fun a => a.data) =
        L.filter fun a => a.plan.ghost d.1 d.2 := by
      rw [List.filterMap_congr (g := some)]
      · exact List.filterMap_some
      · intro a ha
        exact hinv a (List.mem_filter.1 ha).1
    rw [h3] at h2
    rw [Multiset.coe_eq_coe.2 h2, Multiset.filter_coe]
    congr 1
    apply List.filter_congr
    intro a _
    cases a.plan.ghost d.1 d.2 <;> rfl

/-- **C17.** After the exchange each processor holds, as local atom or ghost, exactly the images
of atoms of the system in the slab around its domain, each exactly once. The atoms of `G` are the
atoms of the system before the exchange, on any processors such that none has moved out of its
domain farther than a domain width minus a slab width. -/
theorem C17_exchange (slab : Vec) (hs : SlabOK N slab) (G : Proc N → Local D)
    (hr : WithinReach slab G) (hid : Distinct fun p => (G p).atoms) (q : Proc N) :
    (∀ b ∈ (exchange slab G).atoms q, InSlab slab q b.pos ∧
      ∃ p, ∃ a ∈ (G p).atoms, b.data = a.data ∧ SameImage a.pos b.pos) ∧
    (∀ p, ∀ a ∈ (G p).atoms, ∀ y, SameImage a.pos y → InSlab slab q y →
      ∃ b ∈ (exchange slab G).atoms q, b.data = a.data ∧ b.pos = y) ∧
    (((exchange slab G).atoms q).map fun b => (b.data, b.pos)).Nodup ∧
    ∃ ghosts, (exchange slab G).atoms q = (exchangeAtoms slab G q).atoms ++ ghosts := by
  obtain ⟨hv, hf⟩ := resolve_ok slab G hid
  obtain ⟨f, hfm, hfs⟩ := C16_conservation slab G
  have hid' := distinct_exchangeAtoms slab G hid
  obtain ⟨hu1, hu2, hu3⟩ := C17_unique _ _ hv hf hid' q
  refine ⟨?_, ?_, hu1, hu2⟩
  · intro b hb
    constructor
    · obtain ⟨p, a, ha, c0, h0, c1, h1, h2⟩ := (mem_final hv hf q b).1 hb
      rw [inSlab_iff]
      exact triple_sound (fun i => (flags_exact hs hr p a ha i).2) (fun i => (hs i).1) h0 h1 h2
    · obtain ⟨p, a, ha, hd, n, hn⟩ := hu3 b hb
      have hm : (p, a) ∈ located (exchangeAtoms slab G) := (mem_located).2 ha
      rw [hfm, Multiset.mem_map] at hm
      obtain ⟨⟨p0, a0⟩, ha0, he⟩ := hm
      obtain ⟨hd0, n0, hn0⟩ := hfs (p0, a0)
      rw [he] at hd0 hn0
      refine ⟨p0, a0, (mem_located).1 ha0, hd.trans hd0, fun i => n0 i + n i, ?_⟩
      intro i
      rw [hn i, hn0 i]; push_cast; ring
  · rintro p a ha y ⟨n, hn⟩ hy
    have hm : f (p, a) ∈ located (exchangeAtoms slab G) := by
      rw [hfm]; exact Multiset.mem_map_of_mem _ ((mem_located).2 ha)
    obtain ⟨hd0, n0, hn0⟩ := hfs (p, a)
    have hm' : (f (p, a)).2 ∈ (exchangeAtoms slab G (f (p, a)).1).atoms := (mem_located).1 hm
    obtain ⟨b, hb, hbd, hbp⟩ := C17_complete slab hs _ _ hv hf
      (fun p a ha i => (flags_exact hs hr p a ha i).1) _ _ hm' q y
      ⟨fun i => n i - n0 i, fun i => by rw [hn i, hn0 i]; push_cast; ring⟩ hy
    exact ⟨b, hb, hbd.trans hd0, hbp⟩

/-! ### Concrete cases -/

/-- Slab of width 2/5 in all directions. -/
noncomputable def slab25 : Vec := fun _ => 2 / 5

/-- One atom on processor 0 of `grid2`, at `(t, 1/2, 1/2)`. -/
noncomputable def oneAtom (t : ℝ) : Atom ℕ := ⟨7, fun i => if i = 0 then t else 1 / 2, Plan.mk 0⟩

open Classical in
/-- State with this atom only. -/
noncomputable def oneState (t : ℝ) : Proc grid2 → Local ℕ := fun p =>
  ⟨if p = proc0 then [oneAtom t] else [], fun _ => []⟩

theorem oneState_mem {t : ℝ} {p : Proc grid2} {a : Atom ℕ} (h : a ∈ (oneState t p).atoms) :
    p = proc0 ∧ a = oneAtom t := by
  classical
  unfold oneState at h
  by_cases hp : p = proc0
  · simp only [hp, if_true, List.mem_singleton] at h; exact ⟨hp, h⟩
  · simp [hp] at h

theorem oneState_distinct (t : ℝ) : Distinct fun p => (oneState t p).atoms := by
  classical
  have e : copies (fun p => (oneState t p).atoms) = {(proc0, oneAtom t)} := by
    rw [copies, Finset.sum_eq_single proc0]
    · simp [oneState]
    · intro p _ hp; simp [oneState, hp]
    · intro h; exact absurd (Finset.mem_univ _) h
  rw [Distinct, e]; simp

theorem slab25_ok : SlabOK grid2 slab25 := by
  intro i
  fin_cases i <;> simp [slab25, grid2] <;> norm_num

/-- The hypotheses of `C17_exchange` hold in a case in which an atom has left its domain through
the periodic boundary, and in which processor 0 must receive a ghost. -/
example : SlabOK grid2 slab25 ∧ WithinReach slab25 (oneState (-1 / 20)) ∧
    Distinct (fun p => (oneState (-1 / 20) p).atoms) ∧
    ∃ a ∈ (oneState (-1 / 20) proc0).atoms, ¬ OwnsClosed proc0 a.pos ∧
      ∃ y, SameImage a.pos y ∧ InSlab slab25 proc0 y ∧ ∃ y', SameImage a.pos y' ∧
        InSlab slab25 proc1 y' := by
  refine ⟨slab25_ok, ?_, oneState_distinct _, oneAtom (-1 / 20), by simp [oneState], ?_,
    (oneAtom (-1 / 20)).pos, ⟨0, by simp⟩, ?_, fun i => (oneAtom (-1 / 20)).pos i +
      ((if i = 0 then 1 else 0 : ℤ) : ℝ), ⟨fun i => if i = 0 then 1 else 0, fun i => rfl⟩, ?_⟩
  · intro p a ha i
    obtain ⟨rfl, rfl⟩ := oneState_mem ha
    fin_cases i <;> simp [bound, proc0, grid2, slab25, oneAtom] <;> norm_num
  · intro h
    have := (h 0).1
    simp [bound, proc0, oneAtom] at this
    norm_num at this
  · intro i
    fin_cases i <;> simp [bound, proc0, grid2, slab25, oneAtom] <;> norm_num
  · intro i
    fin_cases i <;> simp [bound, proc1, grid2, slab25, oneAtom] <;> norm_num

/-- **C17, negation beyond reach.** If it is only required that no atom moved farther than one
domain (the condition under which atoms are delivered, C16), ghosts can be missing: here an atom
at distance 3/10 from a domain of width 1/2 with slabs of width 2/5. -/
theorem C17_beyond_reach_missing :
    SlabOK grid2 slab25 ∧ WithinOne (oneState (4 / 5)) ∧
    Distinct (fun p => (oneState (4 / 5) p).atoms) ∧
    ∃ a ∈ (oneState (4 / 5) proc0).atoms, ∃ y, SameImage a.pos y ∧ InSlab slab25 proc0 y ∧
      ¬ ∃ b ∈ (exchange slab25 (oneState (4 / 5))).atoms proc0, b.pos = y := by
  refine ⟨slab25_ok, ?_, oneState_distinct _, oneAtom (4 / 5), by simp [oneState],
    fun i => (oneAtom (4 / 5)).pos i + ((if i = 0 then -1 else 0 : ℤ) : ℝ),
    ⟨fun i => if i = 0 then -1 else 0, fun i => rfl⟩, ?_, ?_⟩
  · intro p a ha i
    obtain ⟨rfl, rfl⟩ := oneState_mem ha
    fin_cases i <;> simp [bound, proc0, grid2, oneAtom] <;> norm_num
  · intro i
    fin_cases i <;> simp [bound, proc0, grid2, slab25, oneAtom] <;> norm_num
  · rintro ⟨b, hb, hy⟩
    obtain ⟨hv, hf⟩ := resolve_ok slab25 (oneState (4 / 5)) (oneState_distinct _)
    obtain ⟨p, a, ha, c0, h0, c1, h1, h2⟩ := (mem_final hv hf proc0 b).1 hb
    have hm : (p, a) ∈ located (exchangeAtoms slab25 (oneState (4 / 5))) := (mem_located).2 ha
    rw [located_exchangeAtoms, Multiset.mem_map] at hm
    obtain ⟨⟨p0, a0⟩, ha0, he⟩ := hm
    obtain ⟨rfl, rfl⟩ := oneState_mem ((mem_located).1 ha0)
    obtain ⟨-, hplan, ht⟩ := target_spec slab25 proc0 (oneAtom (4 / 5))
    obtain ⟨-, -, hu, -⟩ := ht 0
    rw [he] at hplan hu
    have b0 : bound proc0 0 0 = 0 := by simp [bound, proc0]
    have b1 : bound proc0 0 1 = 1 / 2 := by simp [bound, proc0, grid2]
    have x0 : (oneAtom (4 / 5)).pos 0 = 4 / 5 := by simp [oneAtom]
    have hpos := hu (by rw [b1, x0]; norm_num)
    rw [x0, b1] at hpos
    have hbp : 0 ≤ bound p 0 0 := by unfold bound; positivity
    have hflag : a.plan.ghost 0 1 ≠ true := by
      change a.plan = _ at hplan
      rw [hplan, Ne, makePlan_ghost]
      simp [GCond, b0, b1, x0, slab25]
      norm_num
    have hc0 : a.pos 0 ≤ c0.2.pos 0 := by
      rcases mem_expand.1 h0 with rfl | ⟨-, rfl⟩ | ⟨h, -⟩
      · exact le_refl _
      · have h3 : (copyDir (0, 0) (p, a)).2.pos 0 = a.pos 0 + shift (0, 0) (dest (0, 0) p) := by
          simp only [copyDir, receive_pos]; exact move_pos_self _ _ _
        rw [h3]
        have : (0 : ℤ) ≤ shift (0, 0) (dest (0, 0) p) := by
          unfold shift; simp only [if_true]; split <;> omega
        have : (0 : ℝ) ≤ shift (0, 0) (dest (0, 0) p) := by exact_mod_cast this
        linarith
      · exact absurd h hflag
    have e1 := ((expand_frame h1).2.1 0 (by decide)).2.1
    have e2 := ((expand_frame h2).2.1 0 (by decide)).2.1
    have hb0 : b.pos 0 = c0.2.pos 0 := e2.trans e1
    have hy0 := congrFun hy 0
    simp only [x0, if_true] at hy0
    change a.pos 0 - bound p 0 0 = _ at hpos
    rw [hb0] at hy0
    push_cast at hy0
    linarith

/-! ### Updates -/

variable {V : Type} [AddCommGroup V]

theorem linked_exchangeGhosts (atoms : Proc N → List (Atom D)) (send : Proc N → Dir → List ℕ)
    (hv : Valid ⟨atoms, send, fun _ _ => []⟩) :
    Linked (exchangeGhosts atoms send) dirs (fun q => (atoms q).length) :=
  linked_foldl dirs dirs_sorted ⟨atoms, send, fun _ _ => []⟩ hv

/-- **C17, update of ghost positions.** For arbitrary new positions `X` of the local atoms, the
update leaves the local positions unchanged and stores in every ghost the new position of the
atom it is an image of, displaced by the same lattice vector as at the time of the exchange
(`lat i n` is the displacement by `n` periods in direction `i`). -/
theorem C17_update (lat : Fin 3 → ℤ → V) (hlat : ∀ i s t, lat i (s + t) = lat i s + lat i t)
    (atoms : Proc N → List (Atom D)) (send : Proc N → Dir → List ℕ)
    (hv : Valid ⟨atoms, send, fun _ _ => []⟩) (X : Proc N → ℕ → V) :
    (∀ q m, m < (atoms q).length → update lat (exchangeGhosts atoms send) X q m = X q m) ∧
    ∀ q m b, ((exchangeGhosts atoms send).atoms q)[m]? = some b →
      ∃ p k a, (atoms p)[k]? = some a ∧ b.data = a.data ∧ ∃ n : Fin 3 → ℤ,
        (∀ i, b.pos i = a.pos i + (n i : ℝ)) ∧
        update lat (exchangeGhosts atoms send) X q m = X p k + ∑ i, lat i (n i) := by
  have h0 : ∀ i, lat i 0 = 0 := by
    intro i
    have := hlat i 0 0
    simpa using this
  have hl := linked_exchangeGhosts atoms send hv
  obtain ⟨h1, h2⟩ := update_all hlat atoms X dirs _ hl X (by
    intro q m b hm hb
    obtain ⟨t, ht⟩ := foldl_atoms dirs (⟨atoms, send, fun _ _ => []⟩ : GState N D) q
    have hb' : (atoms q)[m]? = some b := by
      rw [exchangeGhosts, ht, List.getElem?_append_left hm] at hb
      exact hb
    exact ⟨q, m, b, hb', rfl, 0, by simp, by simp [h0]⟩)
  exact ⟨fun q m hm => h2 q m hm, h1⟩

open Classical in
/-- **C18.** After the reverse update the force on each local atom is its own force plus the sum
of the forces on all its ghosts on all processors, for every pattern of forwarding (any send
arrays) and all values of the forces. -/
theorem C18_reverse (atoms : Proc N → List (Atom D)) (send : Proc N → Dir → List ℕ)
    (hv : Valid ⟨atoms, send, fun _ _ => []⟩) (hid : Distinct atoms) (F : Proc N → ℕ → V)
    (p : Proc N) (k : ℕ) (a : Atom D) (ha : (atoms p)[k]? = some a) :
    reverseUpdate (exchangeGhosts atoms send) F p k = F p k +
      ∑ q, ∑ m ∈ Finset.Ico (atoms q).length ((exchangeGhosts atoms send).atoms q).length,
        if ((exchangeGhosts atoms send).atoms q)[m]?.map (·.data) = some a.data then F q m else 0 := by
  set G := exchangeGhosts atoms send with hG
  have hl := linked_exchangeGhosts atoms send hv
  rw [← hG] at hl
  have hk : k < (atoms p).length := (List.getElem?_eq_some_iff.1 ha).1
  have hpre : ∀ q m, m < (atoms q).length → (G.atoms q)[m]? = (atoms q)[m]? := by
    intro q m hm
    obtain ⟨t, ht⟩ := foldl_atoms dirs (⟨atoms, send, fun _ _ => []⟩ : GState N D) q
    rw [hG, exchangeGhosts, ht, List.getElem?_append_left hm]
  have hlen : ∀ q, (atoms q).length ≤ (G.atoms q).length := by
    intro q
    obtain ⟨t, ht⟩ := foldl_atoms dirs (⟨atoms, send, fun _ _ => []⟩ : GState N D) q
    rw [hG, exchangeGhosts, ht, List.length_append]
    simp
  -- only slot `(p, k)` among the local slots holds the atom
  have honly : ∀ q m, m < (atoms q).length → (Is G a.data q m ↔ q = p ∧ m = k) := by
    intro q m hm
    unfold Is
    rw [hpre q m hm, List.getElem?_eq_getElem hm]
    simp only [Option.map_some, Option.some.injEq]
    constructor
    · intro he
      have ha' := (List.getElem?_eq_some_iff.1 ha).2
      have hqp : q = p := by
        by_contra hne
        rw [Distinct, copies, ← Finset.add_sum_erase _ _ (Finset.mem_univ q), Multiset.map_add,
          Multiset.nodup_add] at hid
        refine (Multiset.disjoint_left.1 hid.2.2 : a.data ∈ _ → a.data ∉ _) ?_ ?_
        · rw [Multiset.mem_map]
          exact ⟨(q, (atoms q)[m]), Multiset.mem_map_of_mem _ (by simp), he⟩
        · rw [Multiset.mem_map]
          refine ⟨(p, a), ?_, rfl⟩
          rw [Multiset.mem_sum]
          refine ⟨p, Finset.mem_erase.2 ⟨fun h => hne h.symm, Finset.mem_univ _⟩,
            Multiset.mem_map_of_mem _ ?_⟩
          rw [Multiset.mem_coe, ← ha']
          exact List.getElem_mem _
      subst hqp
      refine ⟨rfl, ?_⟩
      have hnd := distinct_local hid q
      have h1 : ((atoms q).map (·.data))[m]'(by simpa using hm) =
          ((atoms q).map (·.data))[k]'(by simpa using hk) := by
        simp only [List.getElem_map]
        rw [he, ha']
      exact (List.Nodup.getElem_inj_iff hnd).1 h1
    · rintro ⟨rfl, rfl⟩
      exact congrArg _ (List.getElem?_eq_some_iff.1 ha).2
  have hsumlocal : ∀ F : Proc N → ℕ → V,
      ∑ q, wsum (Is G a.data q) (atoms q).length (F q) = F p k := by
    intro F
    rw [Finset.sum_eq_single p]
    · rw [wsum, Finset.sum_eq_single k]
      · rw [if_pos ((honly p k hk).2 ⟨rfl, rfl⟩)]
      · intro m hm hne
        rw [if_neg]
        intro h
        exact hne ((honly p m (Finset.mem_range.1 hm)).1 h).2
      · intro h; exact absurd (Finset.mem_range.2 hk) h
    · intro q _ hne
      apply Finset.sum_eq_zero
      intro m hm
      rw [if_neg]
      intro h
      exact hne ((honly q m (Finset.mem_range.1 hm)).1 h).1
    · intro h; exact absurd (Finset.mem_univ p) h
  have hall := reverse_all dirs _ hl F a.data
  rw [← reverseUpdate_foldr] at hall
  rw [hsumlocal] at hall
  rw [hall, ← hsumlocal F, ← Finset.sum_add_distrib]
  apply Finset.sum_congr rfl
  intro q _
  rw [wsum, wsum, ← Finset.sum_range_add_sum_Ico _ (hlen q)]
  congr 1
  apply Finset.sum_congr rfl
  intro m _
  exact if_congr Iff.rfl rfl rfl

/-- **C18 for the complete exchange.** -/
theorem C18_exchange (slab : Vec) (G : Proc N → Local D) (hid : Distinct fun p => (G p).atoms)
    (F : Proc N → ℕ → V) (p : Proc N) (k : ℕ) (a : Atom D)
    (ha : (exchangeAtoms slab G p).atoms[k]? = some a) :
    open Classical in
    reverseUpdate (exchange slab G) F p k = F p k +
      ∑ q, ∑ m ∈ Finset.Ico (exchangeAtoms slab G q).atoms.length ((exchange slab G).atoms q).length,
        if ((exchange slab G).atoms q)[m]?.map (·.data) = some a.data then F q m else 0 :=
  C18_reverse _ _ (resolve_ok slab G hid).1 (distinct_exchangeAtoms slab G hid) F p k a ha

end Verif.DdExchange
