import Verif.DdExchange.GroupGeom

/-! Groups are complete after the exchange of ghosts. -/

set_option autoImplicit false

namespace Verif.DdExchange

open Verif.Boundary Verif.DdChem Verif.Cpp

variable {N : Fin 3 → ℕ} {D K : Type}

/-- The atom has left the domain of its processor, in a direction with several processors. -/
def Leaves (G : Proc N → PState K D) (x : D) : Prop :=
  ∃ r, ∃ a ∈ (G r).base.atoms, a.data = x ∧ ∃ i, 1 < N i ∧ (a.pos i < bound r i 0 ∨ bound r i 1 < a.pos i)

/-- Geometry of a group before the exchange. `u` are unwrapped positions of its atoms: the group is
smaller than a domain minus a slab; where the group is complete the pointers point to the images
that belong together, up to displacements of ghosts since the last update; if two atoms of the group
move to other processors, then the other atoms are within a slab width of each. -/
structure Compact (slab : Vec) (G : Proc N → PState K D) (b : Body K D) (u : D → Vec) : Prop where
  image : ∀ r, ∀ a ∈ (G r).base.atoms, a.data ∈ b.2.2 → SameImage (u a.data) a.pos
  size : ∀ x ∈ b.2.2, ∀ y ∈ b.2.2, ∀ i, 1 < N i → |u x i - u y i| < 1 / (N i : ℝ) - slab i
  ptr : ∀ t, ∀ g ∈ (G t).groups, g.body = b → g.complete = true → ∃ m : Fin 3 → ℤ, ∀ x ∈ b.2.2, ∀ i, 1 < N i →
    (∀ a ∈ (G t).base.atoms, a.data = x → a.pos i = u x i + m i) ∧
    (∀ y, g.ptr x = some (.ghost y) → |y i - (u x i + m i)| < slab i)
  turn : ∀ x ∈ b.2.2, ∀ y ∈ b.2.2, ∀ z ∈ b.2.2, x ≠ y → x ≠ z → y ≠ z → Leaves G y → Leaves G z →
    ∀ i, 1 < N i → |u x i - u y i| < slab i

/-- Hypotheses about the state before the exchange. -/
structure Ready (all : Set (Body K D)) (G : Proc N → PState K D) : Prop where
  ids : IdsDistinct all
  distinct : Distinct fun p => (G p).base.atoms
  stores : ∀ p, StoresG all (G p).base.atoms (G p).groups
  present : ∀ b ∈ all, ∀ x ∈ b.2.2, ∃ p, Has (G p).base.atoms x

/-- Geometric hypotheses. -/
structure Near (slab : Vec) (all : Set (Body K D)) (G : Proc N → PState K D) : Prop where
  slabs : SlabOK N slab
  inSlab : ∀ p, ∀ a ∈ (G p).base.atoms, InSlab slab p a.pos
  reach : ∀ p, ∀ a ∈ (G p).base.atoms, ∀ i,
    bound p i 0 - (1 / (N i : ℝ) - slab i) ≤ a.pos i ∧ a.pos i ≤ bound p i 1 + (1 / (N i : ℝ) - slab i)
  compact : ∀ b ∈ all, ∃ u, Compact slab G b u

theorem dvd_one_false {n : ℕ} (hn : 1 < n) {k : ℤ} (h : (n : ℤ) * k = 1 ∨ (n : ℤ) * k = -1) : False := by
  have hd : (n : ℤ) ∣ 1 := by
    rcases h with h | h
    · exact ⟨k, h.symm⟩
    · exact ⟨-k, by rw [mul_neg, h]; ring⟩
  have := Int.le_of_dvd (by norm_num) hd
  omega

theorem gridFlag_iff {i : Fin 3} : gridFlag N i = true ↔ 1 < N i := by simp [gridFlag]

theorem Ready.nodup {all : Set (Body K D)} {G : Proc N → PState K D} (h : Ready all G) :
    ((located (bases G)).map fun c => c.2.data).Nodup := h.distinct

/-- The final position of an atom, from its origin. -/
theorem origin_target {slab : Vec} {G : Proc N → PState K D}
    {p : Proc N} {a : Atom D} (ha : a ∈ (transfer slab G p).base.atoms) :
    ∃ r, ∃ a0 ∈ (G r).base.atoms, target slab (r, a0) = (p, a) := by
  have hb : (transfer slab G p).base = exchangeAtoms slab (bases G) p := congrFun (bases_transfer slab G) p
  rw [hb] at ha
  have := mem_located.2 ha
  rw [located_exchangeAtoms, Multiset.mem_map] at this
  obtain ⟨⟨r, a0⟩, h1, h2⟩ := this
  exact ⟨r, a0, mem_located.1 h1, h2⟩

/-- Atom `x` of a group, with its columns in direction `i`. -/
structure Member (slab : Vec) (G : Proc N → PState K D) (u : D → Vec) (i : Fin 3) (x : D) (r : Proc N) (a : Atom D)
    (p : Proc N) (a' : Atom D) (m M : ℤ) : Prop where
  mem : a ∈ (G r).base.atoms
  data : a.data = x
  pos : a.pos i = u x i + m
  fin : target slab (r, a) = (p, a')
  pos' : a'.pos i = u x i + M
  col : Col (1 / (N i : ℝ)) (slab i) (u x i) ((p i).val - N i * M) ((r i).val - N i * m)
  cases : (a.pos i < bound r i 0 ∧ ((p i).val : ℤ) - N i * M = (r i).val - N i * m - 1) ∨
     (bound r i 1 < a.pos i ∧ ((p i).val : ℤ) - N i * M = (r i).val - N i * m + 1) ∨
     (bound r i 0 ≤ a.pos i ∧ a.pos i ≤ bound r i 1 ∧ ((p i).val : ℤ) - N i * M = (r i).val - N i * m)

theorem member_of {slab : Vec} {all : Set (Body K D)} {G : Proc N → PState K D} (hn : Near slab all G)
    {b : Body K D} {u : D → Vec} (hu : Compact slab G b u) {x : D} (hx : x ∈ b.2.2) {r : Proc N} {a : Atom D}
    (ha : a ∈ (G r).base.atoms) (hax : a.data = x) {p : Proc N} {a' : Atom D} (ht : target slab (r, a) = (p, a'))
    (i : Fin 3) : ∃ m M, Member slab G u i x r a p a' m M := by
  obtain ⟨m, hm⟩ := hu.image r a ha (by rw [hax]; exact hx)
  rw [hax] at hm
  obtain ⟨M, h1, h2, h3⟩ := column hn.slabs r a (hn.inSlab r a ha) i (hm i)
  rw [ht] at h1 h2 h3
  exact ⟨m i, M, ha, hax, hm i, ht, h1, h2, h3⟩

theorem Member.unique {slab : Vec} {all : Set (Body K D)} {G : Proc N → PState K D} (h : Ready all G) {u : D → Vec}
    {i : Fin 3} {x : D} {r p : Proc N} {a a' : Atom D} {m M : ℤ} (hm : Member slab G u i x r a p a' m M)
    {r1 : Proc N} {a1 : Atom D} (ha1 : a1 ∈ (G r1).base.atoms) (hx1 : a1.data = x) : r1 = r ∧ a1 = a :=
  distinct_unique (G := bases G) h.nodup ha1 hm.mem (hx1.trans hm.data.symm)

/-- An atom that is flagged for exchange has left in this direction. -/
theorem planned_mem {slab : Vec} {G : Proc N → PState K D} {r : Proc N} {a : Atom D}
    (ha : a ∈ (planState slab r (G r)).base.atoms) : ∃ a1 ∈ (G r).base.atoms, a1.data = a.data ∧
      a.plan = makePlan slab r a1.pos a1.plan := by
  simp only [planState, planAll, List.mem_map] at ha
  obtain ⟨a1, h1, rfl⟩ := ha
  exact ⟨a1, h1, rfl, rfl⟩

theorem econd_out {r : Proc N} {x : Vec} {i : Fin 3} {j : Fin 2} (h : ECond r x (i, j)) :
    x i < bound r i 0 ∨ bound r i 1 < x i := by
  unfold ECond at h
  split at h
  · exact Or.inl h
  · exact Or.inr h

/-- In the case in which the flags of the group come from a processor on the other side of the
boundary, the atoms are close. -/
theorem turn_close {slab : Vec} {all : Set (Body K D)} {G : Proc N → PState K D} (h : Ready all G)
    {b : Body K D} {u : D → Vec} (hu : Compact slab G b u) {i : Fin 3} (hi : 1 < N i)
    {x y : D} (hx : x ∈ b.2.2) (hy : y ∈ b.2.2) {p q rx ry : Proc N} {ax ax' ay ay' : Atom D} {mx Mx my My : ℤ}
    (mX : Member slab G u i x rx ax p ax' mx Mx) (mY : Member slab G u i y ry ay q ay' my My)
    {t : Proc N} {mt : ℤ} (hT : ((t i).val : ℤ) - N i * mt = (p i).val - N i * Mx)
    (hne : ((t i).val : ℤ) - N i * mt = (q i).val - N i * My + 1 ∨ ((t i).val : ℤ) - N i * mt = (q i).val - N i * My - 1)
    (hR : ((ry i).val : ℤ) - N i * my = (q i).val - N i * My)
    (hfrom : ∀ i, q i = t i ∨ ∃ j, (i, j) ∈ dirs ∧ gridFlag N i = true ∧ q i = dest (i, j) t i ∧ ∃ x ∈ b.2.2, ∃ r,
      ∃ a ∈ (planState slab r (G r)).base.atoms, a.data = x ∧ a.plan.exchange i j = true ∧ r i = t i)
    (hown : ∀ x ∈ b.2.2, ∀ a ∈ (planState slab q (G q)).base.atoms, a.data = x →
      (∀ d ∈ dirs, gridFlag N d.1 = true → ¬ a.plan.exchange d.1 d.2 = true) → t = q) :
    |u x i - u y i| < slab i := by
  have hqt : q i ≠ t i := by
    intro e
    rw [e] at hne
    apply dvd_one_false hi (k := My - mt)
    rw [mul_sub]
    omega
  rcases hfrom i with e | ⟨j, -, -, -, c, hc, rc, ac, hac, hcd, hce, hrc⟩
  · exact absurd e hqt
  obtain ⟨c1, hc1, hc2, hc3⟩ := planned_mem hac
  rw [hc3, makePlan_exchange] at hce
  have hout := econd_out hce
  have hc1x : c1.data = c := hc2.trans hcd
  have hLc : Leaves G c := ⟨rc, c1, hc1, hc1x, i, hi, hout⟩
  have hyc : y ≠ c := by
    rintro rfl
    obtain ⟨e1, e2⟩ := mY.unique h hc1 hc1x
    subst e1 e2
    rcases mY.cases with ⟨-, e⟩ | ⟨-, e⟩ | ⟨e1, e2, -⟩
    · omega
    · omega
    · rcases hout with ho | ho <;> linarith
  have hxc : x ≠ c := by
    rintro rfl
    obtain ⟨e1, e2⟩ := mX.unique h hc1 hc1x
    subst e1 e2
    apply dvd_one_false hi (k := mx - mt)
    rw [mul_sub]
    have hrc' : ((rc i).val : ℤ) = (t i).val := by rw [hrc]
    rcases mX.cases with ⟨-, e⟩ | ⟨-, e⟩ | ⟨e1, e2, -⟩
    · right; omega
    · left; omega
    · exfalso; rcases hout with ho | ho <;> linarith
  have hxy : x ≠ y := by
    rintro rfl
    obtain ⟨e1, e2⟩ := mX.unique h mY.mem mY.data
    subst e1 e2
    have e3 := mX.fin.symm.trans mY.fin
    have e4 : p = q := congrArg Prod.fst e3
    subst e4
    have e5 : ax' = ay' := congrArg Prod.snd e3
    subst e5
    have e6 := mX.pos'.symm.trans mY.pos'
    have e7 : Mx = My := by
      have : (Mx : ℝ) = My := by linarith
      exact_mod_cast this
    subst e7
    omega
  have hLy : Leaves G y := by
    by_contra hL
    apply hqt
    have hno : ∀ d ∈ dirs, gridFlag N d.1 = true → ¬ (replan slab (ry, ay)).2.plan.exchange d.1 d.2 = true := by
      rintro ⟨i', j'⟩ - hg hx'
      apply hL
      refine ⟨ry, ay, mY.mem, mY.data, i', gridFlag_iff.1 hg, ?_⟩
      rw [show (replan slab (ry, ay)).2.plan = makePlan slab ry ay.pos ay.plan from rfl, makePlan_exchange] at hx'
      exact econd_out hx'
    have hst := along_stay dirs (replan slab (ry, ay)) hno
    have hq : q = ry := by
      have : (target slab (ry, ay)).1 = ry := hst
      rw [mY.fin] at this
      exact this
    have := hown y hy (replan slab (ry, ay)).2 (by
      rw [hq]
      simp only [planState, planAll, List.mem_map]
      exact ⟨ay, mY.mem, rfl⟩) mY.data hno
    rw [this]
  exact hu.turn x hx y hy c hc hxy hxc hyc hLy hLc i hi

/-- The group spans the boundary if the old processor `t` is in the column of `y`. -/
theorem spans_of {slab : Vec} {all : Set (Body K D)} {G : Proc N → PState K D} (h : Ready all G)
    (hn : Near slab all G) {b : Body K D} {u : D → Vec} {i : Fin 3} (hi : 1 < N i)
    {x y : D} (hx : x ∈ b.2.2) (hy : y ∈ b.2.2) {p q rx ry : Proc N} {ax ax' ay ay' : Atom D} {mx Mx my My : ℤ}
    (mX : Member slab G u i x rx ax p ax' mx Mx) (mY : Member slab G u i y ry ay q ay' my My)
    {t : Proc N} {g : Grp K D} (hg : g ∈ (G t).groups) (hgb : g.body = b) (hc : g.complete = true) {m : Fin 3 → ℤ}
    (hm : ∀ x ∈ b.2.2, ∀ i, 1 < N i → (∀ a ∈ (G t).base.atoms, a.data = x → a.pos i = u x i + m i) ∧
      (∀ y, g.ptr x = some (.ghost y) → |y i - (u x i + m i)| < slab i))
    (hT : ((t i).val : ℤ) - N i * m i = (q i).val - N i * My) (j : Fin 2)
    (hK : ((p i).val : ℤ) - N i * Mx = (q i).val - N i * My + if j = 0 then -1 else 1) :
    spans slab t (planState slab t (G t)).base.atoms g (i, j) = true := by
  have hids : g.ids = b.2.2 := congrArg (fun b => b.2.2) hgb
  have hnd : ((planState slab t (G t)).base.atoms.map (·.data)).Nodup :=
    distinct_of_located (distinct_planState slab h.nodup) t
  have hloc : ∀ z ∈ b.2.2, g.ptr z = some .loc → Has (G t).base.atoms z := by
    intro z hz hp
    by_contra hno
    rcases ((h.stores t).ptr g hg z (by rw [hids]; exact hz)).2 hno with e | ⟨y, e⟩ <;> rw [hp] at e <;> simp at e
  have hsome : ∀ z ∈ b.2.2, (g.ptr z).isSome = true := by
    intro z hz
    unfold Grp.complete at hc
    rw [List.all_eq_true] at hc
    exact hc z (by rw [hids]; exact hz)
  have hw := width_pos t i
  have hs := (hn.slabs i).1
  have b0 := bound_zero t i (m i)
  have b1 := bound_one t i (m i)
  have hK' : (((p i).val - N i * Mx : ℤ) : ℝ) = (((t i).val - N i * m i : ℤ) : ℝ) + if j = 0 then -1 else 1 := by
    rw [hT, hK]; push_cast; split <;> ring
  have clo := mX.col.lo
  have chi := mX.col.hi
  have dlo := mY.col.lo
  have dhi := mY.col.hi
  rw [← hT] at dlo dhi
  rw [hK'] at clo chi
  unfold spans
  rw [Bool.and_eq_true, List.any_eq_true, List.any_eq_true]
  refine ⟨⟨x, by rw [hids]; exact hx, ?_⟩, ⟨y, by rw [hids]; exact hy, ?_⟩⟩
  · unfold isOut
    have hs1 := hsome x hx
    cases hp : g.ptr x with
    | none => rw [hp] at hs1; simp at hs1
    | some r =>
      cases r with
      | loc =>
        dsimp only
        obtain ⟨a1, ha1, ha1x⟩ := hloc x hx hp
        have hpos := (hm x hx i hi).1 a1 ha1 ha1x
        obtain ⟨e1, e2⟩ := mX.unique h ha1 ha1x
        subst e1 e2
        have hmm : mx = m i := by
          have := mX.pos.symm.trans hpos
          have : (mx : ℝ) = m i := by linarith
          exact_mod_cast this
        rw [exch_iff hnd]
        refine ⟨(replan slab (t, a1)).2, by simp only [planState, planAll, List.mem_map]; exact ⟨a1, ha1, rfl⟩, ha1x, ?_⟩
        rw [show (replan slab (t, a1)).2.plan = makePlan slab t a1.pos a1.plan from rfl, makePlan_exchange]
        have hca := mX.cases
        rw [hmm] at hca
        unfold ECond
        rcases fin2_cases j with rfl | rfl
        · simp only [if_true] at hK ⊢
          rcases hca with ⟨e, -⟩ | ⟨-, e⟩ | ⟨-, -, e⟩
          · exact e
          · omega
          · omega
        · simp only [show ¬ ((1 : Fin 2) = 0) by decide, if_false] at hK ⊢
          rcases hca with ⟨-, e⟩ | ⟨e, -⟩ | ⟨-, -, e⟩
          · omega
          · exact e
          · omega
      | ghost y' =>
        dsimp only
        have hd := abs_lt.1 ((hm x hx i hi).2 y' hp)
        rcases fin2_cases j with rfl | rfl
        · simp only [if_true, inner, decide_eq_true_eq] at chi ⊢
          rw [b0]
          nlinarith [hd.2]
        · simp only [show ¬ ((1 : Fin 2) = 0) by decide, if_false, inner, decide_eq_true_eq] at clo ⊢
          rw [b1]
          linarith [hd.1]
  · unfold isIn
    have hs1 := hsome y hy
    cases hp : g.ptr y with
    | none => rw [hp] at hs1; simp at hs1
    | some r =>
      cases r with
      | loc =>
        dsimp only
        obtain ⟨a1, ha1, ha1x⟩ := hloc y hy hp
        have hpos := (hm y hy i hi).1 a1 ha1 ha1x
        obtain ⟨e1, e2⟩ := mY.unique h ha1 ha1x
        subst e1 e2
        have hmm : my = m i := by
          have := mY.pos.symm.trans hpos
          have : (my : ℝ) = m i := by linarith
          exact_mod_cast this
        have hca := mY.cases
        rw [hmm] at hca
        have hno : ¬ exch (planState slab t (G t)).base.atoms (i, j) y = true := by
          rw [exch_iff hnd]
          rintro ⟨a2, ha2, hd2, he2⟩
          obtain ⟨a3, h3, h4, h5⟩ := planned_mem ha2
          have := (mY.unique h h3 (h4.trans hd2)).2
          rw [h5, makePlan_exchange, this] at he2
          have ho := econd_out he2
          rcases hca with ⟨-, e⟩ | ⟨-, e⟩ | ⟨e1, e2, -⟩
          · omega
          · omega
          · rcases ho with ho | ho <;> dsimp only at ho <;> linarith
        simp [hno]
      | ghost y' =>
        dsimp only
        have hd := abs_lt.1 ((hm y hy i hi).2 y' hp)
        rcases fin2_cases j with rfl | rfl
        · simp only [if_true, outer, decide_eq_true_eq]
          rw [b0]
          linarith [hd.1]
        · simp only [show ¬ ((1 : Fin 2) = 0) by decide, if_false, outer, decide_eq_true_eq]
          rw [b1]
          linarith [hd.2]

/-- An atom that belongs to a group with an atom on processor `p` has the flags that bring it there. -/
theorem reach {slab : Vec} {all : Set (Body K D)} {G : Proc N → PState K D} (h : Ready all G)
    (hn : Near slab all G) {b : Body K D} (hb : b ∈ all) {x y : D} (hx : x ∈ b.2.2) (hy : y ∈ b.2.2) {p q : Proc N}
    (hxp : Has (transfer slab G p).base.atoms x) (hxq : ¬ Has (transfer slab G q).base.atoms x) {ya : Atom D}
    (hya : ya ∈ (exchangeAtomsG slab G q).base.atoms) (hyd : ya.data = y) (i : Fin 3) :
    p i = q i ∨ (p i = down (q i) ∧ ya.plan.ghost i 0 = true) ∨ (p i = up (q i) ∧ ya.plan.ghost i 1 = true) := by
  by_cases hi : 1 < N i
  swap
  · left
    have := (p i).2
    have := (q i).2
    exact Fin.ext (by omega)
  have hgf : gridFlag N i = true := gridFlag_iff.2 hi
  have hcov := covers_exchangeAtomsG hn.slabs (G := G) hn.reach q ya hya i
  obtain ⟨yt, hyt, hmk⟩ := (marked_exchangeAtomsG slab G q).mem_right hya
  have hbs : (transfer slab G q).base = exchangeAtoms slab (bases G) q := congrFun (bases_transfer slab G) q
  rw [← hbs] at hyt
  have hytd : yt.data = y := hmk.1.symm.trans hyd
  obtain ⟨u, hu⟩ := hn.compact b hb
  obtain ⟨xt, hxt, hxtd⟩ := hxp
  obtain ⟨rx, ax, hax, htx⟩ := origin_target hxt
  obtain ⟨ry, ay, hay, hty⟩ := origin_target hyt
  have hdx : ax.data = x := by
    have := (target_spec slab rx ax).1; rw [htx] at this; exact this.symm.trans hxtd
  have hdy : ay.data = y := by
    have := (target_spec slab ry ay).1; rw [hty] at this; exact this.symm.trans hytd
  obtain ⟨mx, Mx, mX⟩ := member_of hn hu hx hax hdx htx i
  obtain ⟨my, My, mY⟩ := member_of hn hu hy hay hdy hty i
  have hw := width_pos p i
  have hs := (hn.slabs i).1
  have hsz := hu.size x hx y hy i hi
  have n1 := col_near hs hw mX.col mY.col hsz
  have n2 := col_near hs hw mY.col mX.col (by rw [abs_sub_comm]; exact hsz)
  have hcase : ((p i).val : ℤ) - N i * Mx = (q i).val - N i * My ∨
      ((p i).val : ℤ) - N i * Mx = (q i).val - N i * My - 1 ∨
      ((p i).val : ℤ) - N i * Mx = (q i).val - N i * My + 1 := by omega
  -- the group on processor `q`
  have hprov := prov_transfer h.ids slab h.nodup h.stores
  obtain ⟨gq, hgq, hgqb⟩ := ((hprov.stores q).mem b).2 ⟨hb, y, hy, yt, hyt, hytd⟩
  have hgids : gq.ids = b.2.2 := congrArg (fun b => b.2.2) hgqb
  have hinc : ¬ gq.complete = true := by
    intro hc
    unfold Grp.complete at hc
    rw [List.all_eq_true] at hc
    have h1 := hc x (by rw [hgids]; exact hx)
    rw [((hprov.stores q).ptr gq hgq x (by rw [hgids]; exact hx)).2 hxq] at h1
    simp at h1
  have hflag : ∀ j : Fin 2, gq.plan.ghost i j = true → ya.plan.ghost i j = true := by
    intro j hj
    refine hasFlag_markGhosts (N := N) (transfer slab G q) hgq hinc (d := (i, j)) hgf hj (x := y)
      (by rw [hgids]; exact hy) ?_ ya hya hyd
    rw [((hprov.stores q).ptr gq hgq y (by rw [hgids]; exact hy)).1 ⟨yt, hyt, hytd⟩]
    rfl
  obtain ⟨t, g0, hg0, hg0b, hpl, hfrom, hown⟩ := hprov.from_ q gq hgq
  rw [hgids] at hfrom hown
  obtain ⟨g1, hg1, rfl⟩ := List.mem_map.1 hg0
  have hg1b : g1.body = b := by
    have : g1.body = gq.body := hg0b
    exact this.trans hgqb
  have hq0 := bound_zero q i My
  have hq1 := bound_one q i My
  have hyp : ya.pos i = u y i + My := by rw [hmk.2.1]; exact mY.pos'
  -- flags that are needed
  have need : ∀ j : Fin 2, ((p i).val : ℤ) - N i * Mx = (q i).val - N i * My + (if j = 0 then -1 else 1) →
      ya.plan.ghost i j = true := by
    intro j hK
    by_cases hcm : g1.complete = true
    swap
    · apply hflag
      rw [hpl]
      exact spanPlan_flag slab t _ g1 (i, j) hgf (fun h => absurd h hcm)
    obtain ⟨m, hm⟩ := hu.ptr t g1 hg1 hg1b hcm
    obtain ⟨z, hz, az, haz, hzd⟩ := (((h.stores t).mem b).1 ⟨g1, hg1, hg1b⟩).2
    obtain ⟨mz, Mz, mZ⟩ := member_of hn hu hz haz hzd (p := (target slab (t, az)).1) (a' := (target slab (t, az)).2) rfl i
    have hmz : mz = m i := by
      have h1 := mZ.pos.symm.trans ((hm z hz i hi).1 az haz hzd)
      have : (mz : ℝ) = m i := by linarith
      exact_mod_cast this
    rw [hmz] at mZ
    have done : ((t i).val : ℤ) - N i * m i = (q i).val - N i * My → ya.plan.ghost i j = true := by
      intro hT
      apply hflag
      rw [hpl]
      exact spanPlan_flag slab t _ g1 (i, j) hgf fun hc =>
        spans_of h hn hi hx hy mX mY hg1 hg1b hc hm hT j hK
    rcases fin2_cases j with rfl | rfl
    · simp only [if_true] at hK
      have hgeo : u y i < (((q i).val - N i * My : ℤ) : ℝ) * (1 / (N i : ℝ)) + slab i → ya.plan.ghost i 0 = true := by
        intro hlt
        apply hcov.2.2.1
        dsimp only
        rw [hyp, hq0]; linarith
      rcases col_down hs hw mX.col mY.col mZ.col hsz (hu.size z hz x hx i hi) (hu.size z hz y hy i hi) (by omega) with
        e | ⟨e, e' | e'⟩
      · exact done e
      · exact hgeo e'
      · apply hgeo
        have := turn_close h hu hi hx hy mX mY (t := t) (mt := m i) (by omega) (by omega) e' hfrom hown
        have h1 := mX.col.hi
        have h2 := (abs_lt.1 this).1
        have h3 : (((p i).val - N i * Mx : ℤ) : ℝ) = (((q i).val - N i * My : ℤ) : ℝ) - 1 := by
          rw [hK]; push_cast; ring
        rw [h3] at h1
        linarith
    · simp only [show ¬ ((1 : Fin 2) = 0) by decide, if_false] at hK
      have hgeo : ((((q i).val - N i * My : ℤ) : ℝ) + 1) * (1 / (N i : ℝ)) - slab i < u y i → ya.plan.ghost i 1 = true := by
        intro hlt
        apply hcov.2.2.2
        dsimp only
        rw [hyp, hq1]; linarith
      rcases col_up hs hw mX.col mY.col mZ.col hsz (hu.size z hz x hx i hi) (hu.size z hz y hy i hi) hK with
        e | ⟨e, e' | e'⟩
      · exact done e
      · exact hgeo e'
      · apply hgeo
        have := turn_close h hu hi hx hy mX mY (t := t) (mt := m i) (by omega) (by omega) e' hfrom hown
        have h1 := mX.col.lo
        have h2 := (abs_lt.1 this).2
        have h3 : (((p i).val - N i * Mx : ℤ) : ℝ) = (((q i).val - N i * My : ℤ) : ℝ) + 1 := by
          rw [hK]; push_cast; ring
        rw [h3] at h1
        linarith
  rcases hcase with hK | hK | hK
  · left
    exact (unroll_unique (c := p i) (c' := q i) (m := Mx) (m' := My) (by rw [mul_comm Mx, mul_comm My]; exact hK)).1
  · right; left
    refine ⟨?_, need 0 (by simp only [if_true]; omega)⟩
    have hd := down_unroll (q i)
    refine (unroll_unique (c := p i) (c' := down (q i)) (m := Mx)
      (m' := My - (if (q i).val = 0 then (-1 : ℤ) else 0)) ?_).1
    rw [sub_mul, mul_comm Mx, mul_comm My]
    omega
  · right; right
    refine ⟨?_, need 1 (by simp only [show ¬ ((1 : Fin 2) = 0) by decide, if_false]; omega)⟩
    have hd := up_unroll (q i)
    refine (unroll_unique (c := p i) (c' := up (q i)) (m := Mx)
      (m' := My - (if (q i).val + 1 = N i then (1 : ℤ) else 0)) ?_).1
    rw [sub_mul, mul_comm Mx, mul_comm My]
    omega

end Verif.DdExchange
