import Verif.DdExchange.GroupImage

/-! Concrete systems with groups, and a group that is lost (C63). -/

set_option autoImplicit false

namespace Verif.DdExchange

open Verif.Boundary Verif.DdChem Verif.Cpp

variable {N : Fin 3 → ℕ} {D K : Type}

/-! ### Systems given by a list of atoms with their processors -/

open Classical in
/-- Atoms on each processor. -/
noncomputable def atomsOf (L : List (Proc N × Atom D)) (p : Proc N) : List (Atom D) :=
  (L.filter fun c => decide (c.1 = p)).map (·.2)

theorem mem_atomsOf {L : List (Proc N × Atom D)} {p : Proc N} {a : Atom D} : a ∈ atomsOf L p ↔ (p, a) ∈ L := by
  classical
  unfold atomsOf
  simp only [List.mem_map, List.mem_filter, decide_eq_true_eq]
  constructor
  · rintro ⟨⟨q, b⟩, ⟨h1, rfl⟩, rfl⟩; exact h1
  · intro h; exact ⟨(p, a), ⟨h, rfl⟩, rfl⟩

theorem copies_atomsOf (L : List (Proc N × Atom D)) : copies (atomsOf L) = (L : Multiset (Proc N × Atom D)) := by
  classical
  induction L with
  | nil => simp [copies, atomsOf]
  | cons c L ih =>
    have h : ∀ p, ((atomsOf (c :: L) p : List (Atom D)) : Multiset (Atom D)).map (Prod.mk p) =
        (if p = c.1 then {c} else 0) + ((atomsOf L p : List (Atom D)) : Multiset (Atom D)).map (Prod.mk p) := by
      intro p
      unfold atomsOf
      by_cases hp : c.1 = p
      · rw [List.filter_cons_of_pos (by simp [hp]), if_pos hp.symm, List.map_cons, ← Multiset.cons_coe, Multiset.map_cons]
        subst hp
        rfl
      · rw [List.filter_cons_of_neg (by simp [hp]), if_neg (fun e => hp e.symm), zero_add]
    rw [copies, Finset.sum_congr rfl (fun p _ => h p), Finset.sum_add_distrib, Finset.sum_ite_eq' Finset.univ c.1]
    rw [if_pos (Finset.mem_univ _)]
    change {c} + copies (atomsOf L) = _
    rw [ih, Multiset.singleton_add, Multiset.cons_coe]

open Classical in
/-- State in which each processor stores the groups with local atoms, all complete, with ghosts at
the positions `u`. -/
noncomputable def mkState (L : List (Proc N × Atom D)) (bodies : List (Body K D)) (u : D → Vec) : Proc N → PState K D :=
  fun p =>
    { base := ⟨atomsOf L p, fun _ => []⟩
      groups := (bodies.filter fun b => b.2.2.any fun x => decide (Has (atomsOf L p) x)).map fun b =>
        { id := b.1, typ := b.2.1, ids := b.2.2, plan := Plan.mk 0
          ptr := fun x => if Has (atomsOf L p) x then some .loc else some (.ghost (u x)) } }

theorem mkState_ready (L : List (Proc N × Atom D)) (bodies : List (Body K D)) (u : D → Vec)
    (hb : (bodies.map (·.1)).Nodup) (hL : (L.map fun c => c.2.data).Nodup)
    (hp : ∀ b ∈ bodies, ∀ x ∈ b.2.2, ∃ c ∈ L, c.2.data = x) : Ready {b | b ∈ bodies} (mkState L bodies u) := by
  classical
  refine ⟨?_, ?_, ?_, ?_⟩
  · intro b hb1 b' hb2 he
    exact List.inj_on_of_nodup_map hb hb1 hb2 he
  · unfold Distinct
    change ((copies (atomsOf L)).map _).Nodup
    rw [copies_atomsOf, Multiset.map_coe, Multiset.coe_nodup]
    exact hL
  · intro p
    refine ⟨?_, ?_, ?_⟩
    · simp only [mkState, List.map_map]
      exact (List.filter_sublist.map _).nodup hb
    · intro b
      constructor
      · rintro ⟨g, hg, rfl⟩
        simp only [mkState, List.mem_map, List.mem_filter] at hg
        obtain ⟨b, ⟨h1, h2⟩, rfl⟩ := hg
        rw [List.any_eq_true] at h2
        obtain ⟨x, hx, hh⟩ := h2
        exact ⟨h1, x, hx, of_decide_eq_true hh⟩
      · rintro ⟨h1, x, hx, hh⟩
        refine ⟨_, List.mem_map.2 ⟨b, List.mem_filter.2 ⟨h1, ?_⟩, rfl⟩, rfl⟩
        rw [List.any_eq_true]
        exact ⟨x, hx, decide_eq_true hh⟩
    · intro g hg x hx
      simp only [mkState, List.mem_map, List.mem_filter] at hg
      obtain ⟨b, ⟨h1, h2⟩, rfl⟩ := hg
      constructor
      · intro hh; exact if_pos hh
      · intro hh; right; exact ⟨u x, if_neg hh⟩
  · intro b hb1 x hx
    obtain ⟨c, hc, hd⟩ := hp b hb1 x hx
    exact ⟨c.1, c.2, mem_atomsOf.2 hc, hd⟩

theorem mkState_complete {L : List (Proc N × Atom D)} {bodies : List (Body K D)} {u : D → Vec} {p : Proc N} {g : Grp K D}
    (hg : g ∈ (mkState L bodies u p).groups) : g.complete = true := by
  classical
  simp only [mkState, List.mem_map] at hg
  obtain ⟨b, -, rfl⟩ := hg
  unfold Grp.complete
  rw [List.all_eq_true]
  intro x _
  dsimp only
  split <;> rfl

/-- Geometry of a group in such a state; all conditions except the one about corners. -/
theorem mkState_compact {slab : Vec} (hs : ∀ i, 0 < slab i) (L : List (Proc N × Atom D)) (bodies : List (Body K D)) (u : D → Vec)
    (hL : ∀ c ∈ L, c.2.pos = u c.2.data) (b : Body K D)
    (hsz : ∀ x ∈ b.2.2, ∀ y ∈ b.2.2, ∀ i, 1 < N i → |u x i - u y i| < 1 / (N i : ℝ) - slab i)
    (ht : ∀ x ∈ b.2.2, ∀ y ∈ b.2.2, ∀ z ∈ b.2.2, x ≠ y → x ≠ z → y ≠ z → Leaves (mkState L bodies u) y →
      Leaves (mkState L bodies u) z → ∀ i, 1 < N i → |u x i - u y i| < slab i) :
    Compact slab (mkState L bodies u) b u := by
  classical
  refine ⟨?_, hsz, ?_, ht⟩
  · intro r a ha _
    refine ⟨0, fun i => ?_⟩
    rw [hL _ (mem_atomsOf.1 ha)]; simp
  · intro t g hg _ _
    refine ⟨0, fun x _ i _ => ⟨?_, ?_⟩⟩
    · intro a ha hax
      rw [hL _ (mem_atomsOf.1 ha)]; simp [hax]
    · intro y hy
      simp only [mkState, List.mem_map] at hg
      obtain ⟨b, -, rfl⟩ := hg
      dsimp only at hy
      split at hy
      · simp at hy
      · simp only [Option.some.injEq, Ref.ghost.injEq] at hy
        rw [← hy]
        simpa using hs i

/-! ### Further steps of the exchange -/

/-- A group stays, with its flags, where one of its atoms stays. -/
theorem keep_step {all : Set (Body K D)} {G0 G : Proc N → PState K D} {done : List Dir} (h : Prov all G0 done G) (d : Dir)
    {q : Proc N} {g : Grp K D} (hg : g ∈ (G q).groups) {x : D} (hx : x ∈ g.ids) {a : Atom D} (ha : a ∈ (G q).base.atoms)
    (hax : a.data = x) (he : ¬ a.plan.exchange d.1 d.2 = true) :
    ∃ g' ∈ (exchangeDirG d G q).groups, g'.body = g.body ∧ g'.plan = g.plan := by
  classical
  by_cases hgf : gridFlag N d.1 = true
  swap
  · exact ⟨g, by simp only [exchangeDirG, if_neg hgf]; exact hg, rfl, rfl⟩
  have hpn : ((packed (G (source d q)).base.atoms d (G (source d q)).groups).map (·.id)).Nodup :=
    (List.filter_sublist.map _).nodup (h.stores (source d q)).nodup
  have hne : ¬ exch (G q).base.atoms d x = true := by
    rw [exch_iff (atoms := (G q).base.atoms) (distinct_of_located h.distinct q)]
    rintro ⟨b, hb1, hb2, hb3⟩
    have := (distinct_unique (G := bases G) h.distinct (p := q) (q := q) hb1 ha (hb2.trans hax.symm)).2
    rw [this] at hb3
    exact he hb3
  have hk : unpoint (G q).base.atoms d g ∈ kept (G q).base.atoms d (G q).groups := by
    refine mem_kept.2 ⟨g, hg, rfl, x, hx, ?_⟩
    simp only [unpoint, if_neg hne, ((h.stores q).ptr g hg x hx).1 ⟨a, ha, hax⟩, Option.isSome_some]
  refine ⟨if (unpoint (G q).base.atoms d g).id ∈ (packed (G (source d q)).base.atoms d (G (source d q)).groups).map (·.id)
    then findLocal (exchangeDir d (bases G) q).atoms (unpoint (G q).base.atoms d g) else unpoint (G q).base.atoms d g,
    ?_, ?_, ?_⟩
  · simp only [exchangeDirG, if_pos hgf]
    refine (mem_unpack _ _ _ hpn _).2 (Or.inl ⟨_, hk, ?_⟩)
    split <;> rfl
  · split <;> rfl
  · split <;> rfl

/-- A group is received, with its flags, where none of its atoms were. -/
theorem recv_step {all : Set (Body K D)} (hall : IdsDistinct all) {G0 G : Proc N → PState K D} {done : List Dir}
    (h : Prov all G0 done G) (d : Dir) (hgf : gridFlag N d.1 = true) {q : Proc N} {m : Grp K D}
    (hm : m ∈ (G (source d q)).groups) {x : D} (hx : x ∈ m.ids) {a : Atom D} (ha : a ∈ (G (source d q)).base.atoms)
    (hax : a.data = x) (he : a.plan.exchange d.1 d.2 = true) (hno : ∀ y ∈ m.ids, ¬ Has (G q).base.atoms y) :
    ∃ g' ∈ (exchangeDirG d G q).groups, g'.body = m.body ∧ g'.plan = m.plan := by
  classical
  have hpn : ((packed (G (source d q)).base.atoms d (G (source d q)).groups).map (·.id)).Nodup :=
    (List.filter_sublist.map _).nodup (h.stores (source d q)).nodup
  have hp : m ∈ packed (G (source d q)).base.atoms d (G (source d q)).groups := by
    refine List.mem_filter.2 ⟨hm, ?_⟩
    unfold chosen
    rw [List.any_eq_true]
    refine ⟨x, hx, ?_⟩
    rw [Bool.and_eq_true, exch_iff (atoms := (G (source d q)).base.atoms) (distinct_of_located h.distinct _), ((h.stores _).ptr m hm x hx).1 ⟨a, ha, hax⟩]
    exact ⟨rfl, a, ha, hax, he⟩
  have hnk : m.id ∉ (kept (G q).base.atoms d (G q).groups).map (·.id) := by
    intro hi
    obtain ⟨g', hg', hid⟩ := List.mem_map.1 hi
    obtain ⟨g, hg, rfl, -⟩ := mem_kept.1 hg'
    obtain ⟨b1, y, hy, hhy⟩ := ((h.stores q).mem g.body).1 ⟨g, hg, rfl⟩
    have b2 := (((h.stores (source d q)).mem m.body).1 ⟨m, hm, rfl⟩).1
    have hbb : g.body = m.body := hall _ b1 _ b2 hid
    rw [hbb] at hy
    exact hno y hy hhy
  refine ⟨findLocal (exchangeDir d (bases G) q).atoms m, ?_, rfl, rfl⟩
  simp only [exchangeDirG, if_pos hgf]
  exact (mem_unpack _ _ _ hpn _).2 (Or.inr ⟨m, hp, hnk, rfl⟩)

theorem fold_noflag (d : Dir) (step : Plan → Dir → Plan) (h1 : ∀ q e, e ≠ d → (step q e).ghost d.1 d.2 = q.ghost d.1 d.2)
    (h2 : ∀ q, (step q d).ghost d.1 d.2 = false) (l : List Dir) (hd : d ∈ l) (q : Plan) :
    (l.foldl step q).ghost d.1 d.2 = false := by
  induction l using List.reverseRecOn with
  | nil => simp at hd
  | append_singleton l e ih =>
    rw [List.foldl_append, List.foldl_cons, List.foldl_nil]
    by_cases he : e = d
    · subst he; exact h2 _
    · rw [h1 _ _ he]
      apply ih
      rcases List.mem_append.1 hd with h | h
      · exact h
      · rw [List.mem_singleton] at h; exact absurd h.symm he

theorem spanPlan_noflag (slab : Vec) (p : Proc N) (atoms : List (Atom D)) (g : Grp K D) (d : Dir)
    (hd : gridFlag N d.1 = true) (hc : g.complete = true) (h : ¬ spans slab p atoms g d = true) :
    (spanPlan slab p atoms g).ghost d.1 d.2 = false := by
  have ne : ∀ e : Dir, e ≠ d → ¬ (d.1 = e.1 ∧ d.2 = e.2) := fun e he hh => he (Prod.ext hh.1 hh.2).symm
  unfold spanPlan
  rw [if_pos hc]
  apply fold_noflag
  · intro q e he
    split
    · split <;> simp [ghost_setGhost, ghost_clearGhost, ne e he]
    · rfl
  · intro q
    rw [if_pos hd, if_neg h]
    simp [ghost_clearGhost]
  · exact mem_dirs d

/-- Flags come from the plan of the atom or from a group. -/
theorem flag_source (s : PState K D) (d : Dir) {b : Atom D} (hb : b ∈ (markGhosts N s).base.atoms)
    (hf : b.plan.ghost d.1 d.2 = true) :
    (∃ a ∈ s.base.atoms, a.data = b.data ∧ a.plan.ghost d.1 d.2 = true) ∨
    (∃ g ∈ s.groups, b.data ∈ g.ids ∧ g.plan.ghost d.1 d.2 = true) := by
  classical
  obtain ⟨W, hW⟩ : ∃ W : D → Prop, W = fun x => (∃ a ∈ s.base.atoms, a.data = x ∧ a.plan.ghost d.1 d.2 = true) ∨
    (∃ g ∈ s.groups, x ∈ g.ids ∧ g.plan.ghost d.1 d.2 = true) := ⟨_, rfl⟩
  have fold : ∀ {α : Type} (J : Local D → Prop) (f : Local D → α → Local D) (l : List α)
      (_ : ∀ s, ∀ x ∈ l, J s → J (f s x)) (s : Local D), J s → J (l.foldl f s) := by
    intro α J f l
    induction l with
    | nil => intro _ s hs; exact hs
    | cons x l ih => intro h s hs; exact ih (fun s y hy => h s y (by simp [hy])) _ (h s x (by simp) hs)
  have hJ : ∀ b ∈ (markGhosts N s).base.atoms, b.plan.ghost d.1 d.2 = true → W b.data := by
    unfold markGhosts
    refine fold (fun s => ∀ b ∈ s.atoms, b.plan.ghost d.1 d.2 = true → W b.data) _ s.groups ?_ s.base ?_
    · intro s1 g hg hs1
      unfold flagGroup
      split
      · exact hs1
      refine fold (fun s => ∀ b ∈ s.atoms, b.plan.ghost d.1 d.2 = true → W b.data) _ dirs ?_ s1 hs1
      intro s2 d' _ hs2
      unfold flagDir
      split
      swap
      · exact hs2
      rename_i hfl
      rw [Bool.and_eq_true] at hfl
      refine fold (fun s => ∀ b ∈ s.atoms, b.plan.ghost d.1 d.2 = true → W b.data) _ g.ids ?_ s2 hs2
      intro s3 x hx hs3
      split
      swap
      · exact hs3
      unfold setFlag
      split
      swap
      · exact hs3
      intro b hb hbf
      obtain ⟨a, ha, rfl⟩ := List.mem_map.1 hb
      by_cases hax : a.data = x
      · rw [if_pos hax] at hbf ⊢
        simp only [ghost_setGhost] at hbf
        by_cases hd : d.1 = d'.1 ∧ d.2 = d'.2
        · rw [hW]; right
          refine ⟨g, hg, by rw [hax]; exact hx, ?_⟩
          rw [hd.1, hd.2]; exact hfl.2
        · rw [if_neg hd] at hbf
          exact hs3 a ha hbf
      · rw [if_neg hax] at hbf ⊢
        exact hs3 a ha hbf
    · intro b hb hbf
      rw [hW]; left
      exact ⟨b, hb, rfl, hbf⟩
  have := hJ b hb hf
  rw [hW] at this
  exact this

theorem findGhosts_throw (atoms : List (Atom D)) (gs : List (Grp K D)) {g : Grp K D} (hg : g ∈ gs)
    (h : ¬ (if g.complete then g else findGhost atoms g).complete = true) : findGhosts atoms gs = .throw := by
  induction gs with
  | nil => simp at hg
  | cons g1 gs ih =>
    rw [findGhosts]
    by_cases hc : (if g1.complete then g1 else findGhost atoms g1).complete = true
    · simp only [hc, if_true]
      rcases List.mem_cons.1 hg with rfl | hg
      · exact absurd hc h
      · rw [ih hg]
    · rw [if_neg hc]

/-- Processor of an atom on the way. -/
theorem along_fst (done : List Dir) (c : Proc N × Atom D) :
    (along done c).1 = done.foldl (fun p d => if c.2.plan.exchange d.1 d.2 then dest d p else p) c.1 := by
  induction done using List.reverseRecOn with
  | nil => rfl
  | append_singleton l d ih =>
    rw [along_append, List.foldl_append, List.foldl_cons, List.foldl_nil, ← ih]
    unfold moveDir
    rw [along_plan]
    split <;> rfl

end Verif.DdExchange
