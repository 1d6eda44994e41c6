import Verif.DdExchange.GroupComplete

/-! # Properties of the exchange of groups (C63) -/

set_option autoImplicit false

namespace Verif.DdExchange

open Verif.Boundary Verif.DdChem Verif.Cpp

variable {N : Fin 3 → ℕ} {D K : Type}

theorem has_exchangeAtomsG (slab : Vec) (G : Proc N → PState K D) (q : Proc N) (x : D) :
    Has (exchangeAtomsG slab G q).base.atoms x ↔ Has (transfer slab G q).base.atoms x := by
  have hm := (grows_markGhosts (N := N) (transfer slab G q)).1
  constructor
  · rintro ⟨b, hb, rfl⟩
    obtain ⟨a, ha, h⟩ := hm.mem_right hb
    exact ⟨a, ha, h.1.symm⟩
  · rintro ⟨a, ha, rfl⟩
    obtain ⟨b, hb, h⟩ := hm.mem_left ha
    exact ⟨b, hb, h.1⟩

/-- **C63, ownership.** Whatever the positions of the atoms, after `exchangeAtoms` every processor
stores exactly the groups that contain at least one of its local atoms, each once, and the pointers
of each group are exactly those to local atoms. -/
theorem C63_ownership (slab : Vec) {all : Set (Body K D)} {G : Proc N → PState K D} (h : Ready all G) (q : Proc N) :
    ((exchangeAtomsG slab G q).groups.map (·.id)).Nodup ∧
    (∀ b : Body K D, (∃ g ∈ (exchangeAtomsG slab G q).groups, (g.id, g.typ, g.ids) = b) ↔
      b ∈ all ∧ ∃ x ∈ b.2.2, ∃ a ∈ (exchangeAtomsG slab G q).base.atoms, a.data = x) ∧
    (∀ g ∈ (exchangeAtomsG slab G q).groups, ∀ x ∈ g.ids,
      ((∃ a ∈ (exchangeAtomsG slab G q).base.atoms, a.data = x) → g.ptr x = some .loc) ∧
      ((¬ ∃ a ∈ (exchangeAtomsG slab G q).base.atoms, a.data = x) → g.ptr x = none)) := by
  have hs := (prov_transfer h.ids slab h.nodup h.stores).stores q
  have hh := has_exchangeAtomsG slab G q
  refine ⟨hs.nodup, ?_, ?_⟩
  · intro b
    have h1 := hs.mem b
    simp only [← hh] at h1
    exact h1
  · intro g hg x hx
    have h1 := hs.ptr g hg x hx
    rw [← hh] at h1
    exact h1

/-- **C63, atoms.** Groups do not affect where atoms go: atoms and positions are those of the
exchange without groups (C16). -/
theorem C63_atoms (slab : Vec) (G : Proc N → PState K D) (q : Proc N) :
    (exchangeAtomsG slab G q).base.atoms.map (fun a => (a.data, a.pos)) =
      (exchangeAtoms slab (fun p => (G p).base) q).atoms.map fun a => (a.data, a.pos) := by
  have h := marked_exchangeAtomsG slab G q
  unfold MarkedL at h
  have : ∀ l l' : List (Atom D), List.Forall₂ Marked l l' →
      l'.map (fun a => (a.data, a.pos)) = l.map fun a => (a.data, a.pos) := by
    intro l l' h
    induction h with
    | nil => rfl
    | cons hab _ ih => simp only [List.map_cons, ih, hab.1, hab.2.1]
  exact this _ _ h

theorem valid_exchangeG (slab : Vec) {G : Proc N → PState K D} (hid : Distinct fun p => (G p).base.atoms) :
    Valid (⟨fun q => (exchangeAtomsG slab G q).base.atoms, fun q d => resolve (exchangeAtomsG slab G q).base.atoms
      ((exchangeAtomsG slab G q).base.send d), fun _ _ => []⟩ : GState N D) ∧
    ∀ d, Full (⟨fun q => (exchangeAtomsG slab G q).base.atoms, fun q d => resolve (exchangeAtomsG slab G q).base.atoms
      ((exchangeAtomsG slab G q).base.send d), fun _ _ => []⟩ : GState N D) d :=
  resolve_sendOK (fun q => (exchangeAtomsG slab G q).base) (distinct_exchangeAtomsG slab G hid)
    (sendOK_exchangeAtomsG slab G hid)

/-- **C63, ghosts.** With the additional ghosts of groups, every image of an atom within the slab
around a domain is still present on its processor (C17), no image is present twice, all are images
of atoms of the system, and the local atoms come first. -/
theorem C63_ghosts (slab : Vec) (hs : SlabOK N slab) {G : Proc N → PState K D} (hid : Distinct fun p => (G p).base.atoms)
    (hr : WithinReach slab fun p => (G p).base) (q : Proc N) :
    (∀ p, ∀ a ∈ (G p).base.atoms, ∀ y, SameImage a.pos y → InSlab slab q y →
      ∃ b ∈ (exchangeG slab G).atoms q, b.data = a.data ∧ b.pos = y) ∧
    (((exchangeG slab G).atoms q).map fun b => (b.data, b.pos)).Nodup ∧
    (∀ b ∈ (exchangeG slab G).atoms q, ∃ p, ∃ a ∈ (G p).base.atoms, b.data = a.data ∧ SameImage a.pos b.pos) ∧
    (∃ ghosts, (exchangeG slab G).atoms q = (exchangeAtomsG slab G q).base.atoms ++ ghosts) := by
  obtain ⟨hv, hf⟩ := valid_exchangeG slab hid
  have hid' := distinct_exchangeAtomsG slab G hid
  obtain ⟨hu1, hu2, hu3⟩ := C17_unique _ _ hv hf hid' q
  refine ⟨?_, hu1, ?_, hu2⟩
  · rintro p a ha y ⟨n, hn⟩ hy
    have hm : target slab (p, a) ∈ located (exchangeAtoms slab (bases G)) := by
      rw [located_exchangeAtoms]; exact Multiset.mem_map_of_mem _ (mem_located.2 ha)
    have hm' : (target slab (p, a)).2 ∈ (exchangeAtoms slab (bases G) (target slab (p, a)).1).atoms := mem_located.1 hm
    obtain ⟨c, hc, hmk⟩ := (marked_exchangeAtomsG slab G _).mem_left hm'
    obtain ⟨hd, -, ht⟩ := target_spec slab p a
    choose n0 hn0 using fun i => (ht i).1
    obtain ⟨b, hb, hbd, hbp⟩ := C17_complete slab hs _ _ hv hf
      (fun p a ha i => covers_exchangeAtomsG hs hr p a ha i) _ c hc q y
      ⟨fun i => n i - n0 i, fun i => by rw [hn i, hmk.2.1, hn0 i]; push_cast; ring⟩ hy
    exact ⟨b, hb, hbd.trans (hmk.1.trans hd), hbp⟩
  · intro b hb
    obtain ⟨p, c, hc, hd, n, hn⟩ := hu3 b hb
    obtain ⟨a, ha, hmk⟩ := (marked_exchangeAtomsG slab G p).mem_right hc
    have hm := mem_located.2 ha
    rw [located_exchangeAtoms, Multiset.mem_map] at hm
    obtain ⟨⟨p0, a0⟩, ha0, he⟩ := hm
    obtain ⟨hd0, -, ht⟩ := target_spec slab p0 a0
    choose n0 hn0 using fun i => (ht i).1
    rw [he] at hd0 hn0
    refine ⟨p0, a0, mem_located.1 ha0, hd.trans (hmk.1.trans hd0), fun i => n0 i + n i, ?_⟩
    intro i
    rw [hn i, hmk.2.1, hn0 i]; push_cast; ring

/-- Every atom of a group with an atom on processor `p` is present there, as local atom or ghost. -/
theorem present_everywhere {slab : Vec} {all : Set (Body K D)} {G : Proc N → PState K D} (h : Ready all G)
    (hn : Near slab all G) {b : Body K D} (hb : b ∈ all) {x y : D} (hx : x ∈ b.2.2) (hy : y ∈ b.2.2) {p : Proc N}
    (hxp : Has (exchangeAtomsG slab G p).base.atoms x) : Has ((exchangeG slab G).atoms p) y := by
  obtain ⟨hv, hf⟩ := valid_exchangeG slab h.distinct
  obtain ⟨ghosts, hgh⟩ := (C63_ghosts slab hn.slabs h.distinct hn.reach p).2.2.2
  obtain ⟨r, a, ha, had⟩ := h.present b hb y hy
  have hm : target slab (r, a) ∈ located (exchangeAtoms slab (bases G)) := by
    rw [located_exchangeAtoms]; exact Multiset.mem_map_of_mem _ (mem_located.2 ha)
  have hm' : (target slab (r, a)).2 ∈ (exchangeAtoms slab (bases G) (target slab (r, a)).1).atoms := mem_located.1 hm
  obtain ⟨ya, hya, hmk⟩ := (marked_exchangeAtomsG slab G _).mem_left hm'
  have hyd : ya.data = y := hmk.1.trans ((target_spec slab r a).1.trans had)
  obtain ⟨q, hq⟩ : ∃ q, q = (target slab (r, a)).1 := ⟨_, rfl⟩
  rw [← hq] at hya
  by_cases hpq : p = q
  · rw [hgh]
    exact ⟨ya, by rw [hpq]; exact List.mem_append_left _ hya, hyd⟩
  have hxp' := (has_exchangeAtomsG slab G p x).1 hxp
  have hxq : ¬ Has (transfer slab G q).base.atoms x := by
    rintro ⟨c, hc, hcd⟩
    obtain ⟨c', hc', hcd'⟩ := hxp'
    exact hpq (distinct_unique (G := bases (transfer slab G)) (prov_transfer h.ids slab h.nodup h.stores).distinct
      hc' hc (hcd'.trans hcd.symm)).1
  have hr := fun i => reach h hn hb hx hy hxp' hxq hya hyd i
  obtain ⟨c0, h0, c1, h1, ⟨p', z⟩, h2, hp', hz⟩ := triple_reach (q, ya) p hr
  have hp'' : p' = p := hp'
  subst hp''
  exact ⟨z, (mem_final hv hf p' z).2 ⟨q, ya, hya, c0, h0, c1, h1, h2⟩, hz.trans hyd⟩

/-- Result of `findGhosts`. -/
theorem findGhosts_ok (atoms : List (Atom D)) (gs : List (Grp K D))
    (h : ∀ g ∈ gs, (if g.complete then g else findGhost atoms g).complete = true) :
    findGhosts atoms gs = .ok (gs.map fun g => if g.complete then g else findGhost atoms g) := by
  induction gs with
  | nil => rfl
  | cons g gs ih =>
    have h1 := h g (by simp)
    have h2 := ih fun g hg => h g (by simp [hg])
    rw [findGhosts]
    simp only [h1, if_true, h2, List.map_cons]

theorem findGhosts_inv (atoms : List (Atom D)) (gs gs' : List (Grp K D)) (h : findGhosts atoms gs = .ok gs') :
    gs' = gs.map (fun g => if g.complete then g else findGhost atoms g) ∧ ∀ g ∈ gs', g.complete = true := by
  induction gs generalizing gs' with
  | nil => simp only [findGhosts, Out.ok.injEq] at h; subst h; simp
  | cons g gs ih =>
    rw [findGhosts] at h
    by_cases hc : (if g.complete then g else findGhost atoms g).complete = true
    · simp only [hc, if_true] at h
      cases hr : findGhosts atoms gs with
      | ok gs1 =>
        rw [hr] at h
        simp only [Out.ok.injEq] at h
        obtain ⟨e1, e2⟩ := ih gs1 hr
        subst h
        refine ⟨by rw [List.map_cons, ← e1], ?_⟩
        intro g' hg'
        rcases List.mem_cons.1 hg' with rfl | hg'
        · exact hc
        · exact e2 g' hg'
      | throw => rw [hr] at h; simp at h
      | ub => rw [hr] at h; simp at h
    · rw [if_neg hc] at h
      simp at h

/-- Processors after an exchange. -/
noncomputable def after (slab : Vec) (G : Proc N → PState K D) (gs : Proc N → List (Grp K D)) : Proc N → PState K D :=
  fun p => { base := (exchangeAtomsG slab G p).base, groups := gs p }

theorem ptr_find {atoms : List (Atom D)} {g : Grp K D} (x : D) (hx : x ∈ g.ids) :
    (∀ r, g.ptr x = some r → (if g.complete then g else findGhost atoms g).ptr x = some r) ∧
    (g.ptr x = none → (if g.complete then g else findGhost atoms g).ptr x = (look atoms x).map fun a => .ghost a.pos) := by
  by_cases hc : g.complete = true
  · rw [if_pos hc]
    refine ⟨fun r h => h, fun h => ?_⟩
    unfold Grp.complete at hc
    rw [List.all_eq_true] at hc
    have := hc x hx
    rw [h] at this
    simp at this
  · rw [if_neg hc]
    constructor
    · intro r h; simp only [findGhost, h]
    · intro h; simp only [findGhost, h]

theorem found_ids (atoms : List (Atom D)) (g : Grp K D) :
    (if g.complete then g else findGhost atoms g).body = g.body := by
  split <;> rfl

/-- Groups stored after the search for ghosts. -/
theorem C63_invariant_local (slab : Vec) {all : Set (Body K D)} {G : Proc N → PState K D} (h : Ready all G) (p : Proc N)
    {gs : List (Grp K D)} (hgs : finalGroups slab G p = .ok gs) (b : Body K D) : (∃ g ∈ gs, g.body = b) ↔
      b ∈ all ∧ ∃ x ∈ b.2.2, ∃ a ∈ (exchangeAtomsG slab G p).base.atoms, a.data = x := by
  obtain ⟨e1, -⟩ := findGhosts_inv _ _ _ hgs
  refine Iff.trans ?_ ((C63_ownership slab h p).2.1 b)
  rw [e1]
  constructor
  · rintro ⟨g', hg', rfl⟩
    obtain ⟨g, hg, rfl⟩ := List.mem_map.1 hg'
    exact ⟨g, hg, (found_ids _ g).symm⟩
  · rintro ⟨g, hg, rfl⟩
    exact ⟨_, List.mem_map_of_mem hg, found_ids _ g⟩

/-- **C63, invariant.** If no processor throws, the state after the exchange satisfies the hypotheses
about ownership again (whatever the positions), so that ownership holds after any number of
exchanges. -/
theorem C63_invariant (slab : Vec) {all : Set (Body K D)} {G : Proc N → PState K D} (h : Ready all G)
    (gs : Proc N → List (Grp K D)) (hgs : ∀ p, finalGroups slab G p = .ok (gs p)) : Ready all (after slab G gs) := by
  refine ⟨h.ids, distinct_exchangeAtomsG slab G h.distinct, ?_, ?_⟩
  · intro p
    obtain ⟨o1, o2, o3⟩ := C63_ownership slab h p
    obtain ⟨e1, e2⟩ := findGhosts_inv _ _ _ (hgs p)
    have hid : (gs p).map (·.id) = (exchangeAtomsG slab G p).groups.map (·.id) := by
      rw [e1, List.map_map]
      apply List.map_congr_left
      intro g _
      exact congrArg (fun b => b.1) (found_ids _ g)
    refine ⟨?_, ?_, ?_⟩
    · change ((gs p).map (·.id)).Nodup
      rw [hid]; exact o1
    · exact C63_invariant_local slab h p (hgs p)
    · intro g' hg' x hx
      change g' ∈ gs p at hg'
      have hcomp := e2 g' hg'
      rw [e1] at hg'
      obtain ⟨g, hg, rfl⟩ := List.mem_map.1 hg'
      have hx' : x ∈ g.ids := by
        have := congrArg (fun b => b.2.2) (found_ids ((exchangeG slab G).atoms p) g)
        change _ = g.ids at this
        rw [← this]; exact hx
      obtain ⟨q1, q2⟩ := ptr_find (atoms := (exchangeG slab G).atoms p) x hx'
      obtain ⟨r1, r2⟩ := o3 g hg x hx'
      constructor
      · intro hh
        exact q1 _ (r1 hh)
      · intro hh
        rw [q2 (r2 hh)]
        cases look ((exchangeG slab G).atoms p) x with
        | none => left; rfl
        | some a => right; exact ⟨a.pos, rfl⟩
  · intro b hb x hx
    obtain ⟨r, a, ha, hd⟩ := h.present b hb x hx
    have hm : target slab (r, a) ∈ located (exchangeAtoms slab (bases G)) := by
      rw [located_exchangeAtoms]; exact Multiset.mem_map_of_mem _ (mem_located.2 ha)
    have hm' : (target slab (r, a)).2 ∈ (exchangeAtoms slab (bases G) (target slab (r, a)).1).atoms := mem_located.1 hm
    obtain ⟨ya, hya, hmk⟩ := (marked_exchangeAtomsG slab G _).mem_left hm'
    exact ⟨_, ya, hya, hmk.1.trans ((target_spec slab r a).1.trans hd)⟩

/-- **C63, completeness.** After an exchange of atoms and ghosts no group is incomplete: `findGhosts`
does not throw on any processor, and each pointer points to a local atom or, if the atom is not
local, to a ghost of this atom. -/
theorem C63_complete (slab : Vec) {all : Set (Body K D)} {G : Proc N → PState K D} (h : Ready all G)
    (hn : Near slab all G) (p : Proc N) : ∃ gs, finalGroups slab G p = .ok gs ∧
      ∀ g ∈ gs, ∀ x ∈ g.ids,
        (g.ptr x = some .loc ∧ ∃ a ∈ (exchangeAtomsG slab G p).base.atoms, a.data = x) ∨
        ∃ z ∈ (exchangeG slab G).atoms p, z.data = x ∧ g.ptr x = some (.ghost z.pos) := by
  obtain ⟨o1, o2, o3⟩ := C63_ownership slab h p
  have key : ∀ g ∈ (exchangeAtomsG slab G p).groups, ∀ x ∈ g.ids,
      ((if g.complete then g else findGhost ((exchangeG slab G).atoms p) g).ptr x = some .loc ∧
        ∃ a ∈ (exchangeAtomsG slab G p).base.atoms, a.data = x) ∨
      ∃ z ∈ (exchangeG slab G).atoms p, z.data = x ∧
        (if g.complete then g else findGhost ((exchangeG slab G).atoms p) g).ptr x = some (.ghost z.pos) := by
    intro g hg x hx
    obtain ⟨q1, q2⟩ := ptr_find (atoms := (exchangeG slab G).atoms p) x hx
    obtain ⟨r1, r2⟩ := o3 g hg x hx
    by_cases hh : ∃ a ∈ (exchangeAtomsG slab G p).base.atoms, a.data = x
    · exact Or.inl ⟨q1 _ (r1 hh), hh⟩
    · right
      obtain ⟨hb, y, hy, hyp⟩ := (o2 g.body).1 ⟨g, hg, rfl⟩
      obtain ⟨z, hz⟩ := Option.isSome_iff_exists.1 (look_isSome.2 (present_everywhere h hn hb hy hx hyp))
      obtain ⟨hz1, hz2⟩ := look_some hz
      exact ⟨z, hz1, hz2, by rw [q2 (r2 hh), hz]; rfl⟩
  refine ⟨_, findGhosts_ok _ _ ?_, ?_⟩
  · intro g hg
    unfold Grp.complete
    rw [List.all_eq_true]
    intro x hx
    have hx' : x ∈ g.ids := by
      have := congrArg (fun b => b.2.2) (found_ids ((exchangeG slab G).atoms p) g)
      change _ = g.ids at this
      rw [← this]; exact hx
    rcases key g hg x hx' with ⟨e, -⟩ | ⟨z, -, -, e⟩ <;>
      (unfold Grp.complete at e; rw [e]; rfl)
  · intro g' hg' x hx
    obtain ⟨g, hg, rfl⟩ := List.mem_map.1 hg'
    have hx' : x ∈ g.ids := by
      have := congrArg (fun b => b.2.2) (found_ids ((exchangeG slab G).atoms p) g)
      change _ = g.ids at this
      rw [← this]; exact hx
    exact key g hg x hx'

/-! ### When groups turn around corners -/

/-- The last condition of `Compact` holds for all groups of two atoms (bonds). -/
theorem turn_of_pair {slab : Vec} {G : Proc N → PState K D} {b : Body K D} {u : D → Vec} {v w : D} (hb : b.2.2 = [v, w]) :
    ∀ x ∈ b.2.2, ∀ y ∈ b.2.2, ∀ z ∈ b.2.2, x ≠ y → x ≠ z → y ≠ z → Leaves G y → Leaves G z →
    ∀ i, 1 < N i → |u x i - u y i| < slab i := by
  rw [hb]
  intro x hx y hy z hz h1 h2 h3
  simp only [List.mem_cons, List.not_mem_nil, or_false] at hx hy hz
  rcases hx with rfl | rfl <;> rcases hy with rfl | rfl <;> rcases hz with rfl | rfl <;> simp_all

/-- It holds for groups that are smaller than a slab. -/
theorem turn_of_small {slab : Vec} {G : Proc N → PState K D} {b : Body K D} {u : D → Vec}
    (hs : ∀ x ∈ b.2.2, ∀ y ∈ b.2.2, ∀ i, 1 < N i → |u x i - u y i| < slab i) :
    ∀ x ∈ b.2.2, ∀ y ∈ b.2.2, ∀ z ∈ b.2.2, x ≠ y → x ≠ z → y ≠ z → Leaves G y → Leaves G z →
    ∀ i, 1 < N i → |u x i - u y i| < slab i :=
  fun x hx y hy _ _ _ _ _ _ _ i hi => hs x hx y hy i hi

end Verif.DdExchange
