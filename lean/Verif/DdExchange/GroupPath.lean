import Verif.DdExchange.GroupOwn

/-! Where atoms and flags of groups come from, during the exchange of atoms. -/

set_option autoImplicit false

namespace Verif.DdExchange

open Verif.Boundary Verif.DdChem Verif.Cpp

variable {N : Fin 3 → ℕ} {D K : Type}

/-! ### Atoms -/

/-- Atom with its processor after the transfers `done`. -/
noncomputable def along (done : List Dir) (c : Proc N × Atom D) : Proc N × Atom D :=
  done.foldl (fun c d => moveDir d c) c

theorem along_append (done : List Dir) (d : Dir) (c : Proc N × Atom D) :
    along (done ++ [d]) c = moveDir d (along done c) := by
  simp [along, List.foldl_append]

theorem moveDir_data (d : Dir) (c : Proc N × Atom D) : (moveDir d c).2.data = c.2.data := by
  unfold moveDir; split <;> simp
theorem moveDir_plan (d : Dir) (c : Proc N × Atom D) : (moveDir d c).2.plan = c.2.plan := by
  unfold moveDir; split <;> simp

theorem along_data (done : List Dir) (c : Proc N × Atom D) : (along done c).2.data = c.2.data := by
  induction done generalizing c with
  | nil => rfl
  | cons d l ih => exact (ih (moveDir d c)).trans (moveDir_data d c)
theorem along_plan (done : List Dir) (c : Proc N × Atom D) : (along done c).2.plan = c.2.plan := by
  induction done generalizing c with
  | nil => rfl
  | cons d l ih => exact (ih (moveDir d c)).trans (moveDir_plan d c)

theorem dest_coord (d : Dir) {p q : Proc N} (h : p d.1 = q d.1) : dest d p d.1 = dest d q d.1 := by
  simp only [dest, Function.update_self, h]

theorem dest_ne (d : Dir) (p : Proc N) {i : Fin 3} (h : i ≠ d.1) : dest d p i = p i := by
  simp only [dest, Function.update_of_ne h]

/-- Coordinates of the processor on the way. -/
theorem along_coord (done : List Dir) (hnd : done.Nodup) (c : Proc N × Atom D) (he : Excl c.2.plan) (i : Fin 3) :
    ((∀ j, (i, j) ∈ done → ¬ c.2.plan.exchange i j = true) → (along done c).1 i = c.1 i) ∧
    (∀ j, (i, j) ∈ done → c.2.plan.exchange i j = true → (along done c).1 i = dest (i, j) c.1 i) := by
  induction done using List.reverseRecOn with
  | nil => exact ⟨fun _ => rfl, fun j h => absurd h (by simp)⟩
  | append_singleton l d ih =>
    rw [List.nodup_append] at hnd
    obtain ⟨ih1, ih2⟩ := ih hnd.1
    have hdl : d ∉ l := fun h => hnd.2.2 d h d (by simp) rfl
    rw [along_append]
    have hp := along_plan l c
    have hm : (moveDir d (along l c)).1 = if c.2.plan.exchange d.1 d.2 then dest d (along l c).1 else (along l c).1 := by
      unfold moveDir; rw [hp]; split <;> rfl
    rw [hm]
    constructor
    · intro h
      have h1 := ih1 fun j hj => h j (by simp [hj])
      split
      · rename_i hx
        by_cases hi : i = d.1
        · exfalso
          apply h d.2 _ (by rw [hi]; exact hx)
          simp [hi]
        · rw [dest_ne d _ hi, h1]
      · exact h1
    · intro j hj hx
      rcases List.mem_append.1 hj with hj | hj
      · have h2 := ih2 j hj hx
        split
        · rename_i hxd
          by_cases hi : i = d.1
          · exfalso
            have hne : j ≠ d.2 := by
              rintro rfl; exact hdl (by rw [hi] at hj; exact hj)
            apply he i
            rw [← hi] at hxd
            rcases fin2_cases j with rfl | rfl
            · have : d.2 = 1 := by omega
              rw [this] at hxd; exact ⟨hx, hxd⟩
            · have : d.2 = 0 := by omega
              rw [this] at hxd; exact ⟨hxd, hx⟩
          · rw [dest_ne d _ hi, h2]
        · exact h2
      · rw [List.mem_singleton] at hj
        subst hj
        rw [if_pos hx]
        apply dest_coord (i, j)
        apply ih1
        intro j' hj' hx'
        have hne : j' ≠ j := by rintro rfl; exact hdl hj'
        apply he i
        rcases fin2_cases j with rfl | rfl
        · have : j' = 1 := by omega
          rw [this] at hx'; exact ⟨hx, hx'⟩
        · have : j' = 0 := by omega
          rw [this] at hx'; exact ⟨hx', hx⟩

/-- An atom without flags for several processors does not leave. -/
theorem along_stay (done : List Dir) (c : Proc N × Atom D)
    (h : ∀ d ∈ done, gridFlag N d.1 = true → ¬ c.2.plan.exchange d.1 d.2 = true) :
    (along done c).1 = c.1 := by
  induction done using List.reverseRecOn with
  | nil => rfl
  | append_singleton l d ih =>
    rw [along_append]
    have h1 := ih fun d' hd' => h d' (by simp [hd'])
    unfold moveDir
    rw [along_plan]
    split
    · rename_i hx
      cases hg : gridFlag N d.1 with
      | true => exact absurd hx (h d (by simp) hg)
      | false => simp only [(proc_one hg _).1, h1]
    · exact h1

/-! ### Groups -/

/-- A processor before the exchange: groups as in `Stores`, with null or ghost pointers to atoms
that are not local. -/
structure StoresG (all : Set (Body K D)) (atoms : List (Atom D)) (gs : List (Grp K D)) : Prop where
  nodup : (gs.map (·.id)).Nodup
  mem : ∀ b, (∃ g ∈ gs, g.body = b) ↔ b ∈ all ∧ ∃ x ∈ b.2.2, Has atoms x
  ptr : ∀ g ∈ gs, ∀ x ∈ g.ids, (Has atoms x → g.ptr x = some .loc) ∧
    (¬ Has atoms x → g.ptr x = none ∨ ∃ y, g.ptr x = some (.ghost y))

theorem has_planAll (slab : Vec) (p : Proc N) (s : Local D) (x : D) :
    Has (planAll slab p s).atoms x ↔ Has s.atoms x := by
  unfold Has planAll
  simp

theorem stores_planState {all : Set (Body K D)} (slab : Vec) (p : Proc N) (s : PState K D)
    (h : StoresG all s.base.atoms s.groups) :
    Stores all (planState slab p s).base.atoms (planState slab p s).groups := by
  have hh : ∀ x, Has (planState slab p s).base.atoms x ↔ Has s.base.atoms x := fun x => has_planAll slab p s.base x
  refine ⟨?_, ?_, ?_⟩
  · have : (planState slab p s).groups.map (·.id) = s.groups.map (·.id) := by
      simp only [planState, List.map_map]; rfl
    rw [this]; exact h.nodup
  · intro b
    simp only [hh]
    rw [← h.mem b]
    constructor
    · rintro ⟨g', hg', rfl⟩
      obtain ⟨g, hg, rfl⟩ := List.mem_map.1 hg'
      exact ⟨g, hg, rfl⟩
    · rintro ⟨g, hg, rfl⟩
      exact ⟨_, List.mem_map_of_mem hg, rfl⟩
  · intro g' hg' x hx
    obtain ⟨g, hg, rfl⟩ := List.mem_map.1 hg'
    simp only [hh]
    obtain ⟨h1, h2⟩ := h.ptr g hg x hx
    constructor
    · intro hx1; simp only [markSpan, h1 hx1]
    · intro hx1
      rcases h2 hx1 with e | ⟨y, e⟩ <;> simp only [markSpan, e]

/-- Invariant after the transfers `done` from the planned state `G0`. -/
structure Prov (all : Set (Body K D)) (G0 : Proc N → PState K D) (done : List Dir) (G : Proc N → PState K D) : Prop where
  located : located (bases G) = (located (bases G0)).map (along done)
  distinct : ((Verif.DdExchange.located (bases G)).map fun c => c.2.data).Nodup
  stores : ∀ p, Stores all (G p).base.atoms (G p).groups
  from_ : ∀ q, ∀ g ∈ (G q).groups, ∃ t, ∃ g0 ∈ (G0 t).groups, g0.body = g.body ∧ g.plan = g0.plan ∧
    (∀ i, q i = t i ∨ ∃ j, (i, j) ∈ done ∧ gridFlag N i = true ∧ q i = dest (i, j) t i ∧ ∃ x ∈ g.ids, ∃ r, ∃ a ∈ (G0 r).base.atoms,
      a.data = x ∧ a.plan.exchange i j = true ∧ r i = t i) ∧
    (∀ x ∈ g.ids, ∀ a ∈ (G0 q).base.atoms, a.data = x →
      (∀ d ∈ done, gridFlag N d.1 = true → ¬ a.plan.exchange d.1 d.2 = true) → t = q)

theorem prov_start {all : Set (Body K D)} {G0 : Proc N → PState K D}
    (hid : ((located (bases G0)).map fun c => c.2.data).Nodup)
    (hs : ∀ p, Stores all (G0 p).base.atoms (G0 p).groups) : Prov all G0 [] G0 := by
  refine ⟨?_, hid, hs, ?_⟩
  · rw [show along [] = (id : Proc N × Atom D → Proc N × Atom D) from rfl, Multiset.map_id]
  · intro q g hg
    exact ⟨q, g, hg, rfl, rfl, fun i => Or.inl rfl, fun _ _ _ _ _ _ => rfl⟩

theorem Prov.origin {all : Set (Body K D)} {G0 G : Proc N → PState K D} {done : List Dir} (h : Prov all G0 done G)
    {q : Proc N} {a : Atom D} (ha : a ∈ (G q).base.atoms) :
    ∃ r, ∃ a0 ∈ (G0 r).base.atoms, along done (r, a0) = (q, a) := by
  have : (q, a) ∈ Verif.DdExchange.located (bases G) := mem_located.2 ha
  rw [h.located, Multiset.mem_map] at this
  obtain ⟨⟨r, a0⟩, h1, h2⟩ := this
  exact ⟨r, a0, mem_located.1 h1, h2⟩

theorem Prov.image {all : Set (Body K D)} {G0 G : Proc N → PState K D} {done : List Dir} (h : Prov all G0 done G)
    {r : Proc N} {a : Atom D} (ha : a ∈ (G0 r).base.atoms) :
    (along done (r, a)).2 ∈ (G (along done (r, a)).1).base.atoms := by
  have : along done (r, a) ∈ Verif.DdExchange.located (bases G) := by
    rw [h.located, Multiset.mem_map]
    exact ⟨(r, a), mem_located.2 ha, rfl⟩
  exact (mem_located (G := bases G)).1 this

theorem prov_step {all : Set (Body K D)} (hall : IdsDistinct all) {G0 G : Proc N → PState K D} {done : List Dir}
    (hex : ∀ p, ∀ a ∈ (G0 p).base.atoms, Excl a.plan) (h : Prov all G0 done G) (d : Dir)
    (hnd : done.Nodup) (hd : d ∉ done) (hord : d.2 = 0 → ∀ j, (d.1, j) ∉ done) :
    Prov all G0 (done ++ [d]) (exchangeDirG d G) := by
  classical
  have hst := stores_exchangeDirG hall d G h.distinct h.stores
  refine ⟨?_, ?_, hst, ?_⟩
  · rw [bases_exchangeDirG, located_exchangeDir, h.located, Multiset.map_map]
    apply Multiset.map_congr rfl
    intro c _
    simp [along_append]
  · rw [bases_exchangeDirG]; exact distinct_exchangeDir h.distinct d
  intro q g' hg'
  by_cases hg : gridFlag N d.1 = true
  swap
  · have e : (exchangeDirG d G q).groups = (G q).groups := by simp [exchangeDirG, hg]
    rw [e] at hg'
    obtain ⟨t, g0, h0, hb, hp, hP, hO⟩ := h.from_ q g' hg'
    refine ⟨t, g0, h0, hb, hp, ?_, ?_⟩
    · intro i
      rcases hP i with h1 | ⟨j, h1, h2⟩
      · exact Or.inl h1
      · exact Or.inr ⟨j, by simp [h1], h2⟩
    · intro x hx a ha hax hf
      exact hO x hx a ha hax fun d' hd' => hf d' (by simp [hd'])
  have eg : (exchangeDirG d G q).groups = unpack (exchangeDir d (bases G) q).atoms
      (kept (G q).base.atoms d (G q).groups)
      (packed (G (source d q)).base.atoms d (G (source d q)).groups) := by
    simp only [exchangeDirG, hg, if_true]; rfl
  have hpn : ((packed (G (source d q)).base.atoms d (G (source d q)).groups).map (·.id)).Nodup :=
    (List.filter_sublist.map _).nodup (h.stores (source d q)).nodup
  have hatoms : ∀ p, ((G p).base.atoms.map (·.data)).Nodup := fun p => distinct_of_located h.distinct p
  rw [eg] at hg'
  rcases (mem_unpack _ _ _ hpn g').1 hg' with ⟨g1, h1, rfl⟩ | ⟨m, h1, h2, rfl⟩
  · obtain ⟨g, hgg, rfl, -⟩ := mem_kept.1 h1
    obtain ⟨t, g0, h0, hb, hp, hP, hO⟩ := h.from_ q g hgg
    have hsame : ∀ (c : Prop) [Decidable c], (if c then findLocal (exchangeDir d (bases G) q).atoms
        (unpoint (G q).base.atoms d g) else unpoint (G q).base.atoms d g).body = g.body ∧
        (if c then findLocal (exchangeDir d (bases G) q).atoms
        (unpoint (G q).base.atoms d g) else unpoint (G q).base.atoms d g).plan = g.plan ∧
        (if c then findLocal (exchangeDir d (bases G) q).atoms
        (unpoint (G q).base.atoms d g) else unpoint (G q).base.atoms d g).ids = g.ids := by
      intro c _; split <;> exact ⟨rfl, rfl, rfl⟩
    obtain ⟨s1, s2, s3⟩ := hsame ((unpoint (G q).base.atoms d g).id ∈
      (packed (G (source d q)).base.atoms d (G (source d q)).groups).map (·.id))
    refine ⟨t, g0, h0, ?_, ?_, ?_, ?_⟩
    · rw [s1]; exact hb
    · rw [s2]; exact hp
    · rw [s3]
      intro i
      rcases hP i with h1 | ⟨j, h1, h2⟩
      · exact Or.inl h1
      · exact Or.inr ⟨j, by simp [h1], h2⟩
    · rw [s3]
      intro x hx a ha hax hf
      exact hO x hx a ha hax fun d' hd' => hf d' (by simp [hd'])
  · obtain ⟨h3, h4⟩ := List.mem_filter.1 h1
    obtain ⟨t, g0, h0, hb, hp, hP, hO⟩ := h.from_ (source d q) m h3
    -- the atom that is sent along
    have hc : ∃ x ∈ m.ids, ∃ a ∈ (G (source d q)).base.atoms, a.data = x ∧ a.plan.exchange d.1 d.2 = true := by
      unfold chosen at h4
      rw [List.any_eq_true] at h4
      obtain ⟨x, hx, he⟩ := h4
      rw [Bool.and_eq_true, exch_iff (hatoms _)] at he
      exact ⟨x, hx, he.2⟩
    refine ⟨t, g0, h0, hb, hp, ?_, ?_⟩
    · intro i
      by_cases hi : i = d.1
      · subst hi
        rcases hP d.1 with hs | ⟨j', hj', -, hs, -⟩
        · right
          obtain ⟨x, hx, a, ha, hax, he⟩ := hc
          obtain ⟨r, a0, ha0, hal⟩ := h.origin ha
          have hpl : a0.plan = a.plan := by
            have := along_plan done (r, a0); rw [hal] at this; exact this.symm
          have hda : a0.data = a.data := by
            have := along_data done (r, a0); rw [hal] at this; exact this.symm
          have hco := (along_coord done hnd (r, a0) (hex r a0 ha0) d.1).1 (by
            intro j hj hxj
            have hne : j ≠ d.2 := by rintro rfl; exact hd hj
            apply hex r a0 ha0 d.1
            rw [← hpl] at he
            rcases fin2_cases j with rfl | rfl
            · have : d.2 = 1 := by omega
              rw [this] at he; exact ⟨hxj, he⟩
            · have : d.2 = 0 := by omega
              rw [this] at he; exact ⟨he, hxj⟩)
          rw [hal] at hco
          refine ⟨d.2, by simp, hg, ?_, x, hx, r, a0, ha0, hda.trans hax, by rw [hpl]; exact he, hco.symm.trans hs⟩
          have : q d.1 = dest d (source d q) d.1 := by rw [dest_source]
          rw [this]
          exact dest_coord d hs
        · left
          have hd2 : d.2 = 1 := by
            rcases fin2_cases d.2 with e | e
            · exact absurd hj' (hord e j')
            · exact e
          have hj0 : j' = 0 := by
            rcases fin2_cases j' with e | e
            · exact e
            · rw [e, ← hd2] at hj'; exact absurd hj' hd
          rw [hj0] at hs
          have h1 : q d.1 = dest d (source d q) d.1 := by rw [dest_source]
          have h2 : dest d (source d q) d.1 = up (source d q d.1) := by
            simp [dest, hd2]
          rw [h1, h2, hs]
          simp [dest, up_down]
      · have hq : source d q i = q i := by simp only [source, Function.update_of_ne hi]
        rcases hP i with hs | ⟨j, hj, h5⟩
        · left; rw [← hq]; exact hs
        · right
          refine ⟨j, by simp [hj], ?_⟩
          rw [hq] at h5
          exact h5
    · intro x hx a ha hax hf
      exfalso
      have hstay := along_stay done (q, a) fun d' hd' => hf d' (by simp [hd'])
      have hin := h.image ha
      rw [hstay] at hin
      have hdat : (along done (q, a)).2.data = x := (along_data done (q, a)).trans hax
      have hm' : m.body ∈ all := (((h.stores _).mem _).1 ⟨m, h3, rfl⟩).1
      obtain ⟨g, hgg, hgb⟩ := ((h.stores q).mem m.body).2 ⟨hm', x, hx, _, hin, hdat⟩
      apply h2
      have hids : g.ids = m.ids := congrArg (fun b => b.2.2) hgb
      refine List.mem_map.2 ⟨unpoint (G q).base.atoms d g, mem_kept.2 ⟨g, hgg, rfl, x, by rw [hids]; exact hx, ?_⟩,
        congrArg (fun b => b.1) hgb⟩
      have hne : ¬ exch (G q).base.atoms d x = true := by
        rw [exch_iff (hatoms q)]
        rintro ⟨b, hb1, hb2, hb3⟩
        have := (distinct_unique (G := bases G) h.distinct (p := q) (q := q) hb1 hin (hb2.trans hdat.symm)).2
        rw [this, along_plan] at hb3
        exact hf d (by simp) hg hb3
      simp only [unpoint, if_neg hne, ((h.stores q).ptr g hgg x (by rw [hids]; exact hx)).1 ⟨_, hin, hdat⟩,
        Option.isSome_some]

theorem planAll_excl (slab : Vec) (p : Proc N) (s : PState K D) :
    ∀ a ∈ (planState slab p s).base.atoms, Excl a.plan := by
  intro a ha
  simp only [planState, planAll, List.mem_map] at ha
  obtain ⟨b, -, rfl⟩ := ha
  exact makePlan_excl _ _ _ _

theorem distinct_planState (slab : Vec) {G : Proc N → PState K D}
    (hid : ((located (bases G)).map fun c => c.2.data).Nodup) :
    ((located (bases fun p => planState slab p (G p))).map fun c => c.2.data).Nodup := by
  have e : bases (fun p => planState slab p (G p)) = fun p => planAll slab p (bases G p) := rfl
  rw [e, located_planAll, Multiset.map_map]
  exact hid

/-- The invariant after all transfers. -/
theorem prov_transfer {all : Set (Body K D)} (hall : IdsDistinct all) (slab : Vec) {G : Proc N → PState K D}
    (hid : ((located (bases G)).map fun c => c.2.data).Nodup)
    (hs : ∀ p, StoresG all (G p).base.atoms (G p).groups) :
    Prov all (fun p => planState slab p (G p)) dirs (transfer slab G) := by
  have h0 := prov_start (distinct_planState slab hid) (fun p => stores_planState slab p (G p) (hs p))
  have hex : ∀ p, ∀ a ∈ (planState slab p (G p)).base.atoms, Excl a.plan := fun p => planAll_excl slab p (G p)
  have h1 := prov_step hall hex h0 (0, 0) (by decide) (by decide) (by decide)
  have h2 := prov_step hall hex h1 (0, 1) (by decide) (by decide) (by decide)
  have h3 := prov_step hall hex h2 (1, 0) (by decide) (by decide) (by decide)
  have h4 := prov_step hall hex h3 (1, 1) (by decide) (by decide) (by decide)
  have h5 := prov_step hall hex h4 (2, 0) (by decide) (by decide) (by decide)
  have h6 := prov_step hall hex h5 (2, 1) (by decide) (by decide) (by decide)
  exact h6

theorem bases_foldl (l : List Dir) (G : Proc N → PState K D) :
    bases (l.foldl (fun G d => exchangeDirG d G) G) = l.foldl (fun G d => exchangeDir d G) (bases G) := by
  induction l generalizing G with
  | nil => rfl
  | cons d l ih => rw [List.foldl_cons, ih, bases_exchangeDirG]; rfl

/-- Groups do not affect the transfer of atoms. -/
theorem bases_transfer (slab : Vec) (G : Proc N → PState K D) :
    bases (transfer slab G) = exchangeAtoms slab (bases G) := by
  rw [transfer, bases_foldl]; rfl

end Verif.DdExchange
