import Verif.DdExchange.GroupModel
import Verif.DdExchange.GhostProps

/-! Which processor stores which groups during the exchange of atoms. -/

set_option autoImplicit false

namespace Verif.DdExchange

open Verif.Boundary Verif.DdChem Verif.Cpp

variable {N : Fin 3 → ℕ} {D K : Type}

/-- What is transmitted of a group, except the flags: id, type, atom ids. -/
abbrev Body (K D : Type) := K × ℤ × List D

/-- Body of a group. -/
def Grp.body (g : Grp K D) : Body K D := (g.id, g.typ, g.ids)

/-- The atom with the given id is one of the atoms. -/
def Has (atoms : List (Atom D)) (x : D) : Prop := ∃ a ∈ atoms, a.data = x

/-- A processor with local atoms `atoms` stores exactly the groups among `all` that contain at
least one of its atoms, each once, and the pointers of each group are exactly those to local
atoms. -/
structure Stores (all : Set (Body K D)) (atoms : List (Atom D)) (gs : List (Grp K D)) : Prop where
  nodup : (gs.map (·.id)).Nodup
  mem : ∀ b, (∃ g ∈ gs, g.body = b) ↔ b ∈ all ∧ ∃ x ∈ b.2.2, Has atoms x
  ptr : ∀ g ∈ gs, ∀ x ∈ g.ids, (Has atoms x → g.ptr x = some .loc) ∧ (¬ Has atoms x → g.ptr x = none)

/-- Group ids are distinct. -/
def IdsDistinct (all : Set (Body K D)) : Prop := ∀ b ∈ all, ∀ b' ∈ all, b.1 = b'.1 → b = b'

theorem look_mem {atoms : List (Atom D)} (h : (atoms.map (·.data)).Nodup) {a : Atom D} (ha : a ∈ atoms) :
    look atoms a.data = some a := by
  classical
  induction atoms with
  | nil => simp at ha
  | cons b l ih =>
    rw [List.map_cons, List.nodup_cons] at h
    unfold look
    rcases List.mem_cons.1 ha with rfl | ha'
    · simp
    · have hne : b.data ≠ a.data := by
        intro e; apply h.1; rw [e]; exact List.mem_map_of_mem ha'
      rw [List.find?_cons_of_neg (by simpa using hne)]
      exact ih h.2 ha'

theorem look_some {atoms : List (Atom D)} {x : D} {a : Atom D} (h : look atoms x = some a) :
    a ∈ atoms ∧ a.data = x := by
  classical
  unfold look at h
  exact ⟨List.mem_of_find?_eq_some h, by simpa using List.find?_some h⟩

theorem look_isSome {atoms : List (Atom D)} {x : D} : (look atoms x).isSome = true ↔ Has atoms x := by
  classical
  unfold look Has
  rw [List.find?_isSome]
  simp

theorem exch_iff {atoms : List (Atom D)} (h : (atoms.map (·.data)).Nodup) {d : Dir} {x : D} :
    exch atoms d x = true ↔ ∃ a ∈ atoms, a.data = x ∧ a.plan.exchange d.1 d.2 = true := by
  unfold exch
  constructor
  · intro hx
    cases hl : look atoms x with
    | none => rw [hl] at hx; simp at hx
    | some a =>
      rw [hl] at hx
      obtain ⟨h1, h2⟩ := look_some hl
      exact ⟨a, h1, h2, by simpa using hx⟩
  · rintro ⟨a, ha, rfl, he⟩
    rw [look_mem h ha]
    simpa using he

@[simp] theorem findLocal_id (atoms : List (Atom D)) (g : Grp K D) : (findLocal atoms g).id = g.id := rfl
@[simp] theorem findLocal_body (atoms : List (Atom D)) (g : Grp K D) : (findLocal atoms g).body = g.body := rfl
@[simp] theorem findLocal_plan (atoms : List (Atom D)) (g : Grp K D) : (findLocal atoms g).plan = g.plan := rfl
@[simp] theorem findLocal_idem (atoms : List (Atom D)) (g : Grp K D) :
    findLocal atoms (findLocal atoms g) = findLocal atoms g := rfl

theorem findLocal_ptr (atoms : List (Atom D)) (g : Grp K D) (x : D) :
    (Has atoms x → (findLocal atoms g).ptr x = some .loc) ∧
    (¬ Has atoms x → (findLocal atoms g).ptr x = none) := by
  constructor
  · intro h; simp only [findLocal, look_isSome.2 h, if_true]
  · intro h
    have : ¬ (look atoms x).isSome = true := fun e => h (look_isSome.1 e)
    simp only [findLocal, if_neg this]

theorem unpackStep_ids (atoms : List (Atom D)) (gs : List (Grp K D)) (m : Grp K D) :
    (m.id ∈ gs.map (·.id) ∧ (unpackStep atoms gs m).map (·.id) = gs.map (·.id)) ∨
    (m.id ∉ gs.map (·.id) ∧ (unpackStep atoms gs m).map (·.id) = gs.map (·.id) ++ [m.id]) := by
  classical
  unfold unpackStep
  by_cases h : m.id ∈ gs.map (·.id)
  · left
    refine ⟨h, ?_⟩
    have : (gs.any fun g => decide (g.id = m.id)) = true := by
      rw [List.any_eq_true]
      obtain ⟨g, hg, e⟩ := List.mem_map.1 h
      exact ⟨g, hg, by simpa using e⟩
    rw [if_pos this, List.map_map]
    apply List.map_congr_left
    intro g _
    simp only [Function.comp]
    split <;> rfl
  · right
    refine ⟨h, ?_⟩
    have : ¬ (gs.any fun g => decide (g.id = m.id)) = true := by
      rw [List.any_eq_true]
      rintro ⟨g, hg, e⟩
      exact h (List.mem_map.2 ⟨g, hg, by simpa using e⟩)
    rw [if_neg this, List.map_append]
    simp

open Classical in
theorem mem_unpackStep (atoms : List (Atom D)) (gs : List (Grp K D)) (m g' : Grp K D) :
    g' ∈ unpackStep atoms gs m ↔
      (∃ g ∈ gs, g' = if g.id = m.id then findLocal atoms g else g) ∨
      (m.id ∉ gs.map (·.id) ∧ g' = findLocal atoms m) := by
  unfold unpackStep
  by_cases h : m.id ∈ gs.map (·.id)
  · have : (gs.any fun g => decide (g.id = m.id)) = true := by
      rw [List.any_eq_true]
      obtain ⟨g, hg, e⟩ := List.mem_map.1 h
      exact ⟨g, hg, by simpa using e⟩
    rw [if_pos this, List.mem_map]
    constructor
    · rintro ⟨g, hg, rfl⟩; exact Or.inl ⟨g, hg, rfl⟩
    · rintro (⟨g, hg, rfl⟩ | ⟨h', -⟩)
      · exact ⟨g, hg, rfl⟩
      · exact absurd h h'
  · have : ¬ (gs.any fun g => decide (g.id = m.id)) = true := by
      rw [List.any_eq_true]
      rintro ⟨g, hg, e⟩
      exact h (List.mem_map.2 ⟨g, hg, by simpa using e⟩)
    have hne : ∀ g ∈ gs, ¬ g.id = m.id := fun g hg e => h (List.mem_map.2 ⟨g, hg, e⟩)
    rw [if_neg this, List.mem_append, List.mem_singleton]
    constructor
    · rintro (hg | rfl)
      · exact Or.inl ⟨g', hg, by rw [if_neg (hne g' hg)]⟩
      · exact Or.inr ⟨h, rfl⟩
    · rintro (⟨g, hg, rfl⟩ | ⟨-, rfl⟩)
      · left; rw [if_neg (hne g hg)]; exact hg
      · right; rfl

theorem unpack_nodup (atoms : List (Atom D)) (gs ms : List (Grp K D)) (h : (gs.map (·.id)).Nodup) :
    ((unpack atoms gs ms).map (·.id)).Nodup := by
  induction ms generalizing gs with
  | nil => exact h
  | cons m ms ih =>
    apply ih
    rcases unpackStep_ids atoms gs m with ⟨-, e⟩ | ⟨hn, e⟩
    · rw [e]; exact h
    · rw [e, List.nodup_append]
      refine ⟨h, by simp, ?_⟩
      intro a ha b hb
      rw [List.mem_singleton] at hb
      subst hb
      rintro rfl
      exact hn ha

open Classical in
/-- Groups after `unpack`. -/
theorem mem_unpack (atoms : List (Atom D)) (gs ms : List (Grp K D)) (hms : (ms.map (·.id)).Nodup)
    (g' : Grp K D) :
    g' ∈ unpack atoms gs ms ↔
      (∃ g ∈ gs, g' = if g.id ∈ ms.map (·.id) then findLocal atoms g else g) ∨
      (∃ m ∈ ms, m.id ∉ gs.map (·.id) ∧ g' = findLocal atoms m) := by
  induction ms generalizing gs with
  | nil => simp [unpack]
  | cons m ms ih =>
    rw [List.map_cons, List.nodup_cons] at hms
    have e : unpack atoms gs (m :: ms) = unpack atoms (unpackStep atoms gs m) ms := rfl
    rw [e, ih _ hms.2]
    constructor
    · rintro (⟨g1, hg1, rfl⟩ | ⟨m', hm', hn, rfl⟩)
      · rcases (mem_unpackStep atoms gs m g1).1 hg1 with ⟨g, hg, rfl⟩ | ⟨hn, rfl⟩
        · left
          refine ⟨g, hg, ?_⟩
          by_cases h1 : g.id = m.id
          · simp [h1]
          · simp [h1]
        · right
          refine ⟨m, by simp, hn, ?_⟩
          simp
      · right
        refine ⟨m', by simp [hm'], ?_, rfl⟩
        intro hin
        apply hn
        rcases unpackStep_ids atoms gs m with ⟨-, e⟩ | ⟨-, e⟩ <;> rw [e]
        · exact hin
        · exact List.mem_append_left _ hin
    · rintro (⟨g, hg, rfl⟩ | ⟨m', hm', hn, rfl⟩)
      · left
        refine ⟨if g.id = m.id then findLocal atoms g else g,
          (mem_unpackStep _ _ _ _).2 (Or.inl ⟨g, hg, rfl⟩), ?_⟩
        by_cases h1 : g.id = m.id
        · simp [h1]
        · simp [h1]
      · rcases List.mem_cons.1 hm' with rfl | hm''
        · left
          refine ⟨findLocal atoms m', (mem_unpackStep _ _ _ _).2 (Or.inr ⟨hn, rfl⟩), ?_⟩
          simp
        · right
          refine ⟨m', hm'', ?_, rfl⟩
          intro hin
          rcases unpackStep_ids atoms gs m with ⟨-, e⟩ | ⟨-, e⟩ <;> rw [e] at hin
          · exact hn hin
          · rcases List.mem_append.1 hin with h | h
            · exact hn h
            · rw [List.mem_singleton] at h
              apply hms.1
              rw [← h]
              exact List.mem_map_of_mem hm''

/-! ### One transfer -/

/-- Atoms after a transfer between several processors. -/
theorem has_exchangeDir {d : Dir} (hg : gridFlag N d.1 = true) (G : Proc N → Local D) (q : Proc N) (x : D) :
    Has (exchangeDir d G q).atoms x ↔
      (∃ a ∈ (G q).atoms, a.data = x ∧ ¬ a.plan.exchange d.1 d.2 = true) ∨
      (∃ a ∈ (G (source d q)).atoms, a.data = x ∧ a.plan.exchange d.1 d.2 = true) := by
  unfold Has
  simp only [exchangeDir, hg, if_true, List.mem_append, List.mem_filter, List.mem_map]
  constructor
  · rintro ⟨a, ⟨ha, he⟩ | ⟨b, ⟨hb, he⟩, rfl⟩, rfl⟩
    · exact Or.inl ⟨a, ha, rfl, by simpa using he⟩
    · exact Or.inr ⟨b, hb, by simp, he⟩
  · rintro (⟨a, ha, rfl, he⟩ | ⟨a, ha, rfl, he⟩)
    · exact ⟨a, Or.inl ⟨ha, by simpa using he⟩, rfl⟩
    · exact ⟨a.move d.1 (shift d q), Or.inr ⟨a, ⟨ha, he⟩, rfl⟩, by simp⟩

theorem has_exchangeDir_one {d : Dir} (hg : ¬ gridFlag N d.1 = true) (G : Proc N → Local D) (q : Proc N) (x : D) :
    Has (exchangeDir d G q).atoms x ↔ Has (G q).atoms x := by
  unfold Has
  simp only [exchangeDir, if_neg hg, List.mem_map]
  constructor
  · rintro ⟨a, ⟨b, hb, rfl⟩, rfl⟩
    exact ⟨b, hb, by split <;> simp⟩
  · rintro ⟨a, ha, rfl⟩
    exact ⟨_, ⟨a, ha, rfl⟩, by split <;> simp⟩

theorem distinct_of_located {G : Proc N → Local D} (h : ((located G).map fun c => c.2.data).Nodup) (q : Proc N) :
    ((G q).atoms.map (·.data)).Nodup := distinct_local (atoms := fun p => (G p).atoms) h q

theorem distinct_unique {G : Proc N → Local D} (h : ((located G).map fun c => c.2.data).Nodup)
    {p q : Proc N} {a b : Atom D} (ha : a ∈ (G p).atoms) (hb : b ∈ (G q).atoms) (he : a.data = b.data) :
    p = q ∧ a = b := by
  have := Multiset.inj_on_of_nodup_map h (p, a) (mem_located.2 ha) (q, b) (mem_located.2 hb) he
  exact ⟨congrArg Prod.fst this, congrArg Prod.snd this⟩

theorem distinct_exchangeDir {G : Proc N → Local D} (h : ((located G).map fun c => c.2.data).Nodup) (d : Dir) :
    ((located (exchangeDir d G)).map fun c => c.2.data).Nodup := by
  rw [located_exchangeDir, Multiset.map_map]
  have e : ((fun c : Proc N × Atom D => c.2.data) ∘ moveDir d) = fun c => c.2.data := by
    funext c
    simp only [Function.comp, moveDir]
    split <;> simp
  rw [e]; exact h

/-- Local atoms of all processors. -/
def bases (G : Proc N → PState K D) : Proc N → Local D := fun p => (G p).base

theorem bases_exchangeDirG (d : Dir) (G : Proc N → PState K D) :
    bases (exchangeDirG d G) = exchangeDir d (bases G) := by
  funext q
  simp only [bases, exchangeDirG]
  split <;> rfl

theorem mem_kept {atoms : List (Atom D)} {d : Dir} {gs : List (Grp K D)} {g' : Grp K D} :
    g' ∈ kept atoms d gs ↔ ∃ g ∈ gs, unpoint atoms d g = g' ∧ ∃ x ∈ g.ids, (g'.ptr x).isSome = true := by
  unfold kept isEmpty
  rw [List.mem_filter, List.mem_map]
  constructor
  · rintro ⟨⟨g, hg, rfl⟩, he⟩
    refine ⟨g, hg, rfl, ?_⟩
    by_contra hn
    push Not at hn
    have : ((unpoint atoms d g).ids.all fun x => ((unpoint atoms d g).ptr x).isNone) = true := by
      rw [List.all_eq_true]
      intro x hx
      have := hn x hx
      simpa using this
    rw [this] at he
    simp at he
  · rintro ⟨g, hg, rfl, x, hx, hs⟩
    refine ⟨⟨g, hg, rfl⟩, ?_⟩
    rw [Bool.not_eq_true', Bool.eq_false_iff]
    intro hall
    rw [List.all_eq_true] at hall
    have := hall x hx
    rw [Option.isNone_iff_eq_none] at this
    rw [this] at hs
    simp at hs

/-- A transfer preserves the correct distribution of the groups. -/
theorem stores_exchangeDirG {all : Set (Body K D)} (hall : IdsDistinct all) (d : Dir)
    (G : Proc N → PState K D) (hid : ((located (bases G)).map fun c => c.2.data).Nodup)
    (h : ∀ p, Stores all (G p).base.atoms (G p).groups) (q : Proc N) :
    Stores all (exchangeDirG d G q).base.atoms (exchangeDirG d G q).groups := by
  classical
  by_cases hg : gridFlag N d.1 = true
  swap
  · have e : (exchangeDirG d G q).groups = (G q).groups := by simp [exchangeDirG, hg]
    have e2 : (exchangeDirG d G q).base = exchangeDir d (bases G) q := congrFun (bases_exchangeDirG d G) q
    have hh : ∀ x, Has (exchangeDirG d G q).base.atoms x ↔ Has (G q).base.atoms x := by
      intro x; rw [e2]; exact has_exchangeDir_one hg (bases G) q x
    rw [e]
    refine ⟨(h q).nodup, ?_, ?_⟩
    · intro b; simp only [hh]; exact (h q).mem b
    · intro g hg' x hx; simp only [hh]; exact (h q).ptr g hg' x hx
  have e2 : (exchangeDirG d G q).base = exchangeDir d (bases G) q := congrFun (bases_exchangeDirG d G) q
  have eg : (exchangeDirG d G q).groups = unpack (exchangeDir d (bases G) q).atoms
      (kept (G q).base.atoms d (G q).groups)
      (packed (G (source d q)).base.atoms d (G (source d q)).groups) := by
    simp only [exchangeDirG, hg, if_true]; rfl
  have hh := has_exchangeDir hg (bases G) q
  have hnd : ∀ p, ((G p).base.atoms.map (·.data)).Nodup := fun p => distinct_of_located hid p
  have hkn : ((kept (G q).base.atoms d (G q).groups).map (·.id)).Nodup := by
    have : ((kept (G q).base.atoms d (G q).groups).map (·.id)).Sublist ((G q).groups.map (·.id)) := by
      unfold kept
      have e : (G q).groups.map (·.id) = ((G q).groups.map (unpoint (G q).base.atoms d)).map (·.id) := by
        rw [List.map_map]; rfl
      rw [e]
      exact List.filter_sublist.map _
    exact this.nodup (h q).nodup
  have hpn : ((packed (G (source d q)).base.atoms d (G (source d q)).groups).map (·.id)).Nodup :=
    (List.filter_sublist.map _).nodup (h (source d q)).nodup
  have hm := mem_unpack (exchangeDir d (bases G) q).atoms (kept (G q).base.atoms d (G q).groups) _ hpn
  -- a kept group: an atom that stays
  have hkept : ∀ g ∈ (G q).groups, ∀ x ∈ g.ids,
      (((unpoint (G q).base.atoms d g).ptr x).isSome = true ↔
        ∃ a ∈ (G q).base.atoms, a.data = x ∧ ¬ a.plan.exchange d.1 d.2 = true) := by
    intro g hgg x hx
    obtain ⟨p1, p2⟩ := (h q).ptr g hgg x hx
    simp only [unpoint]
    by_cases hhas : Has (G q).base.atoms x
    · obtain ⟨a, ha, rfl⟩ := hhas
      rw [p1 ⟨a, ha, rfl⟩]
      by_cases he : a.plan.exchange d.1 d.2 = true
      · have : exch (G q).base.atoms d a.data = true := (exch_iff (hnd q)).2 ⟨a, ha, rfl, he⟩
        rw [if_pos this]
        simp only [Option.isSome_none, Bool.false_eq_true, false_iff]
        rintro ⟨b, hb, hab, hb'⟩
        have := (distinct_unique hid (G := bases G) (p := q) (q := q) hb ha hab).2
        rw [this] at hb'
        exact hb' he
      · have : ¬ exch (G q).base.atoms d a.data = true := by
          rw [exch_iff (hnd q)]
          rintro ⟨b, hb, hab, hb'⟩
          have := (distinct_unique hid (G := bases G) (p := q) (q := q) hb ha hab).2
          rw [this] at hb'
          exact he hb'
        rw [if_neg this]
        simp only [Option.isSome_some, true_iff]
        exact ⟨a, ha, rfl, he⟩
    · rw [p2 hhas]
      simp only [ite_self, Option.isSome_none, Bool.false_eq_true, false_iff]
      rintro ⟨b, hb, hab, -⟩
      exact hhas ⟨b, hb, hab⟩
  -- a packed group: an atom that is sent
  have hpack : ∀ g ∈ (G (source d q)).groups, (chosen (G (source d q)).base.atoms d g = true ↔
      ∃ x ∈ g.ids, ∃ a ∈ (G (source d q)).base.atoms, a.data = x ∧ a.plan.exchange d.1 d.2 = true) := by
    intro g hgg
    unfold chosen
    rw [List.any_eq_true]
    constructor
    · rintro ⟨x, hx, he⟩
      rw [Bool.and_eq_true, exch_iff (hnd _)] at he
      exact ⟨x, hx, he.2⟩
    · rintro ⟨x, hx, a, ha, rfl, he⟩
      refine ⟨_, hx, ?_⟩
      rw [Bool.and_eq_true, exch_iff (hnd _), ((h (source d q)).ptr g hgg _ hx).1 ⟨a, ha, rfl⟩]
      exact ⟨rfl, a, ha, rfl, he⟩
  have hsame : ∀ g ∈ (G q).groups, ∀ m ∈ (G (source d q)).groups, g.id = m.id → g.body = m.body := by
    intro g h1 m h2 he
    exact hall _ (((h q).mem _).1 ⟨g, h1, rfl⟩).1 _ (((h _).mem _).1 ⟨m, h2, rfl⟩).1 he
  rw [eg, e2]
  refine ⟨unpack_nodup _ _ _ hkn, ?_, ?_⟩
  · intro b
    constructor
    · rintro ⟨g', hg', rfl⟩
      rcases (hm g').1 hg' with ⟨g1, h1, rfl⟩ | ⟨m, h1, h2, rfl⟩
      · obtain ⟨g, hgg, rfl, x, hx, hs⟩ := mem_kept.1 h1
        have hb : (if (unpoint (G q).base.atoms d g).id ∈ (packed (G (source d q)).base.atoms d
            (G (source d q)).groups).map (·.id) then findLocal (exchangeDir d (bases G) q).atoms
            (unpoint (G q).base.atoms d g) else unpoint (G q).base.atoms d g).body = g.body := by
          split <;> rfl
        rw [hb]
        refine ⟨(((h q).mem _).1 ⟨g, hgg, rfl⟩).1, x, hx, (hh x).2 (Or.inl ((hkept g hgg x hx).1 hs))⟩
      · obtain ⟨h3, h4⟩ := List.mem_filter.1 h1
        rw [findLocal_body]
        obtain ⟨x, hx, hxa⟩ := (hpack m h3).1 h4
        exact ⟨(((h _).mem _).1 ⟨m, h3, rfl⟩).1, x, hx, (hh x).2 (Or.inr hxa)⟩
    · rintro ⟨hb, x, hx, hhas⟩
      rcases (hh x).1 hhas with ⟨a, ha, hax, he⟩ | ⟨a, ha, hax, he⟩
      · obtain ⟨g, hgg, hgb⟩ := ((h q).mem b).2 ⟨hb, x, hx, a, ha, hax⟩
        have hx' : x ∈ g.ids := by rw [← hgb] at hx; exact hx
        refine ⟨_, (hm _).2 (Or.inl ⟨unpoint (G q).base.atoms d g, mem_kept.2 ⟨g, hgg, rfl, x, hx',
          (hkept g hgg x hx').2 ⟨a, ha, hax, he⟩⟩, rfl⟩), ?_⟩
        rw [← hgb]
        split <;> rfl
      · obtain ⟨m, hmm, hmb⟩ := ((h (source d q)).mem b).2 ⟨hb, x, hx, a, ha, hax⟩
        have hx' : x ∈ m.ids := by rw [← hmb] at hx; exact hx
        have hmp : m ∈ packed (G (source d q)).base.atoms d (G (source d q)).groups :=
          List.mem_filter.2 ⟨hmm, (hpack m hmm).2 ⟨x, hx', a, ha, hax, he⟩⟩
        by_cases hin : m.id ∈ (kept (G q).base.atoms d (G q).groups).map (·.id)
        · obtain ⟨g1, hg1, he1⟩ := List.mem_map.1 hin
          refine ⟨_, (hm _).2 (Or.inl ⟨g1, hg1, rfl⟩), ?_⟩
          obtain ⟨g, hgg, rfl, -⟩ := mem_kept.1 hg1
          rw [← hmb, ← hsame g hgg m hmm he1]
          split <;> rfl
        · exact ⟨_, (hm _).2 (Or.inr ⟨m, hmp, hin, rfl⟩), by rw [findLocal_body, hmb]⟩
  · intro g' hg' x hx
    rcases (hm g').1 hg' with ⟨g1, h1, rfl⟩ | ⟨m, h1, h2, rfl⟩
    · by_cases hin : g1.id ∈ (packed (G (source d q)).base.atoms d (G (source d q)).groups).map (·.id)
      · rw [if_pos hin]
        exact findLocal_ptr _ _ x
      · rw [if_neg hin] at hx ⊢
        obtain ⟨g, hgg, rfl, -⟩ := mem_kept.1 h1
        have hx' : x ∈ g.ids := hx
        have hno : ¬ ∃ a ∈ (bases G (source d q)).atoms, a.data = x ∧ a.plan.exchange d.1 d.2 = true := by
          rintro ⟨a, ha, hax, he⟩
          obtain ⟨m, hmm, hmb⟩ := ((h (source d q)).mem g.body).2
            ⟨(((h q).mem _).1 ⟨g, hgg, rfl⟩).1, x, hx', a, ha, hax⟩
          apply hin
          have hids : m.ids = g.ids := congrArg (fun b => b.2.2) hmb
          refine List.mem_map.2 ⟨m, List.mem_filter.2 ⟨hmm, (hpack m hmm).2 ⟨x, ?_, a, ha, hax, he⟩⟩, ?_⟩
          · rw [hids]; exact hx'
          · exact congrArg (fun b => b.1) hmb
        have hiff : Has (exchangeDir d (bases G) q).atoms x ↔
            ((unpoint (G q).base.atoms d g).ptr x).isSome = true := by
          rw [hh x, hkept g hgg x hx']
          constructor
          · rintro (h | h)
            · exact h
            · exact absurd h hno
          · exact Or.inl
        have hloc : ∀ r, (unpoint (G q).base.atoms d g).ptr x = some r → r = .loc := by
          intro r hr
          simp only [unpoint] at hr
          split at hr
          · simp at hr
          · by_cases hhas : Has (G q).base.atoms x
            · rw [((h q).ptr g hgg x hx').1 hhas] at hr
              simpa using hr.symm
            · rw [((h q).ptr g hgg x hx').2 hhas] at hr
              simp at hr
        constructor
        · intro hx1
          obtain ⟨r, hr⟩ := Option.isSome_iff_exists.1 (hiff.1 hx1)
          rw [hr, hloc r hr]
        · intro hx1
          rw [hiff] at hx1
          simpa using hx1
    · exact findLocal_ptr _ _ x

end Verif.DdExchange
