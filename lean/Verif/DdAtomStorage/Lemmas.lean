import Verif.DdAtomStorage.Model
import Verif.DdAtomMap.Props

/-! # Invariant of the atom storage -/

set_option autoImplicit false

namespace Verif.DdAtomStorage

open Verif.DdAtomMap (Map Pick Rel Hole alloc)

variable {V : Type}

theorem set_idxOf_perm {l : List Nat} {i : Nat} (x : Nat) (h : i ∈ l) :
    (l.set (l.idxOf i) x).Perm (x :: l.erase i) := by
  induction l with
  | nil => cases h
  | cons a l ih =>
    by_cases ha : a = i
    · subst ha
      simp
    · have hi : i ∈ l := by
        rcases List.mem_cons.1 h with h | h
        · exact absurd h.symm ha
        · exact h
      rw [List.idxOf_cons_ne _ ha, List.erase_cons_tail (by simpa using ha)]
      simp only [Nat.succ_eq_add_one, List.set_cons_succ]
      exact ((ih hi).cons a).trans (List.Perm.swap x a _)

theorem setRemove_perm {l : List Nat} (hnd : l.Nodup) {i : Nat} (h : i ∈ l) :
    ∃ l', setRemove l i = some l' ∧ l'.Perm (l.erase i) := by
  unfold setRemove
  rw [if_pos h]
  refine ⟨_, rfl, ?_⟩
  rcases List.eq_nil_or_concat l with rfl | ⟨a, x, rfl⟩
  · cases h
  · rw [List.concat_eq_append] at *
    have hx : (a ++ [x]).getLastD 0 = x := by simp
    rw [hx]
    by_cases hi : i ∈ a
    · rw [List.idxOf_append_of_mem hi, List.set_append_left _ _ (List.idxOf_lt_length_of_mem hi),
        List.erase_append_left _ hi, List.dropLast_concat]
      exact (set_idxOf_perm x hi).trans (List.perm_append_singleton x _).symm
    · have hix : i = x := by simpa [hi] using h
      subst hix
      rw [List.idxOf_append_of_notMem hi, List.set_append_right _ _ (by omega),
        List.erase_append_right _ hi]
      simp

/-- Every slot is in exactly one of the three places. -/
structure Side.OK (cap : Nat) (g : Side) : Prop where
  perm : (g.set ++ g.res ++ g.pend.toList).Perm (List.range cap)

theorem Side.init_ok (cap : Nat) : (Side.init cap).OK cap := ⟨by simp [Side.init]⟩

theorem Side.OK.nodup {cap : Nat} {g : Side} (h : g.OK cap) :
    (g.set ++ g.res ++ g.pend.toList).Nodup := h.perm.nodup_iff.2 List.nodup_range

theorem Side.OK.set_nodup {cap : Nat} {g : Side} (h : g.OK cap) : g.set.Nodup :=
  (List.nodup_append.1 (List.nodup_append.1 h.nodup).1).1

theorem Side.OK.length {cap : Nat} {g : Side} (h : g.OK cap) :
    g.set.length + g.res.length + g.pend.toList.length = cap := by
  have := h.perm.length_eq
  simp only [List.length_append, List.length_range] at this
  exact this

theorem Side.OK.pend_notMem {cap : Nat} {g : Side} (h : g.OK cap) {i : Nat} (hp : g.pend = some i) :
    i ∉ g.set := by
  intro hi
  have := (List.nodup_append.1 h.nodup).2.2 i (by simp [hi]) i (by simp [hp])
  exact this rfl

theorem Side.OK.append {cap : Nat} {g : Side} (h : g.OK cap) {i : Nat} (hp : g.pend = some i) :
    setAppend cap g.set i = some (g.set ++ [i]) ∧
    Side.OK cap { g with set := g.set ++ [i], pend := none } := by
  have hl := h.length
  rw [hp] at hl
  simp only [Option.toList_some, List.length_singleton] at hl
  refine ⟨?_, ⟨?_⟩⟩
  · unfold setAppend
    rw [if_neg]
    rintro (h1 | h1)
    · exact h.pend_notMem hp h1
    · omega
  · refine List.Perm.trans ?_ h.perm
    rw [hp]
    simp only [Option.toList_none, Option.toList_some, List.append_nil]
    rw [List.append_assoc, List.append_assoc]
    exact List.Perm.append_left _ List.perm_append_comm

theorem Side.OK.pop {cap : Nat} {g : Side} (h : g.OK cap) (hp : g.pend = none) {i : Nat}
    {r : List Nat} (hr : g.res = i :: r) :
    Side.OK cap { g with res := r, pend := some i } := by
  refine ⟨List.Perm.trans ?_ h.perm⟩
  rw [hp, hr]
  simp only [Option.toList_none, Option.toList_some, List.append_nil]
  rw [List.append_assoc]
  exact List.Perm.append_left _ (List.perm_append_singleton i r)

theorem Side.OK.remove {cap : Nat} {g : Side} (h : g.OK cap) {i : Nat} (hi : i ∈ g.set) :
    ∃ l, setRemove g.set i = some l ∧ l.Perm (g.set.erase i) ∧
      push cap g.res i = some (i :: g.res) ∧ Side.OK cap { g with set := l, res := i :: g.res } := by
  obtain ⟨l, h1, h2⟩ := setRemove_perm h.set_nodup hi
  refine ⟨l, h1, h2, ?_, ⟨List.Perm.trans ?_ h.perm⟩⟩
  · unfold push
    rw [if_neg]
    have hl := h.length
    have : 0 < g.set.length := List.length_pos_of_mem hi
    omega
  · simp only
    refine List.Perm.append_right _ ?_
    refine (List.perm_middle).trans ?_
    rw [← List.cons_append]
    exact List.Perm.append_right _ ((h2.cons i).trans (List.perm_cons_erase hi).symm)

/-- Local atoms and ghosts as sets of pointers. -/
def locals (s : Store V) : Finset Ptr := (s.at_.set.map Ptr.atom).toFinset
def ghosts (s : Store V) : Finset Ptr := (s.gh.set.map Ptr.ghost).toFinset

theorem mem_locals {s : Store V} {p : Ptr} : p ∈ locals s ↔ ∃ i ∈ s.at_.set, p = .atom i := by
  simp [locals, eq_comm]

theorem mem_ghosts {s : Store V} {p : Ptr} : p ∈ ghosts s ↔ ∃ i ∈ s.gh.set, p = .ghost i := by
  simp [ghosts, eq_comm]

theorem atom_mem {s : Store V} {i : Nat} : Ptr.atom i ∈ locals s ↔ i ∈ s.at_.set := by
  simp [locals]

theorem ghost_mem {s : Store V} {i : Nat} : Ptr.ghost i ∈ ghosts s ↔ i ∈ s.gh.set := by
  simp [ghosts]

/-- The invariant of the storage. -/
structure Inv (s : Store V) : Prop where
  at_ : s.at_.OK s.acap
  gh : s.gh.OK s.gcap
  rel : Rel s.map s.ids (locals s) (ghosts s)
  aflag : ∀ i ∈ s.at_.set, s.flag (.atom i) = false
  gflag : ∀ i ∈ s.gh.set, s.flag (.ghost i) = true

theorem inv_init (acap gcap : Nat) (total : ℤ) (pos : Ptr → V) (snap : Nat → V) :
    Inv (init acap gcap total pos snap) :=
  ⟨Side.init_ok _, Side.init_ok _, DdAtomMap.rel_alloc total _, by simp [init, Side.init],
    by simp [init, Side.init]⟩

theorem card_locals {s : Store V} (h : Inv s) : (locals s).card = s.at_.set.length := by
  unfold locals
  rw [List.toFinset_card_of_nodup, List.length_map]
  exact h.at_.set_nodup.map (fun a b e => by cases e; rfl)

theorem card_ghosts {s : Store V} (h : Inv s) : (ghosts s).card = s.gh.set.length := by
  unfold ghosts
  rw [List.toFinset_card_of_nodup, List.length_map]
  exact h.gh.set_nodup.map (fun a b e => by cases e; rfl)

theorem Inv.isValid {s : Store V} (h : Inv s) (ha : s.at_.pend = none) (hg : s.gh.pend = none) :
    isValid s := by
  have h1 := h.at_.length
  have h2 := h.gh.length
  rw [ha] at h1
  rw [hg] at h2
  refine ⟨by simpa using h1, by simpa using h2, ?_, DdAtomMap.Rel.isValid h.rel, ?_, ?_⟩
  · rw [h.rel.nGhost, card_ghosts h]
  · intro i hi
    exact ⟨h.aflag i hi, h.rel.loc _ (atom_mem.2 hi)⟩
  · intro i hi
    exact ⟨h.gflag i hi, h.rel.gst _ (ghost_mem.2 hi) (by simp)⟩

/-- The sets of pointers depend only on the two sets of slots. -/
theorem locals_congr {s t : Store V} (h : s.at_.set = t.at_.set) : locals s = locals t := by
  unfold locals; rw [h]

theorem ghosts_congr {s t : Store V} (h : s.gh.set = t.gh.set) : ghosts s = ghosts t := by
  unfold ghosts; rw [h]

theorem locals_append (s : Store V) (i : Nat) (l : List Nat) (hl : l = s.at_.set ++ [i])
    (t : Store V) (ht : t.at_.set = l) : locals t = insert (Ptr.atom i) (locals s) := by
  ext p
  rw [mem_locals, ht, hl, Finset.mem_insert, mem_locals]
  simp only [List.mem_append, List.mem_singleton]
  constructor
  · rintro ⟨j, h | h, e⟩
    · exact .inr ⟨j, h, e⟩
    · subst h; exact .inl e
  · rintro (e | ⟨j, h, e⟩)
    · exact ⟨i, .inr rfl, e⟩
    · exact ⟨j, .inl h, e⟩

theorem ghosts_append (s : Store V) (i : Nat) (l : List Nat) (hl : l = s.gh.set ++ [i])
    (t : Store V) (ht : t.gh.set = l) : ghosts t = insert (Ptr.ghost i) (ghosts s) := by
  ext p
  rw [mem_ghosts, ht, hl, Finset.mem_insert, mem_ghosts]
  simp only [List.mem_append, List.mem_singleton]
  constructor
  · rintro ⟨j, h | h, e⟩
    · exact .inr ⟨j, h, e⟩
    · subst h; exact .inl e
  · rintro (e | ⟨j, h, e⟩)
    · exact ⟨i, .inr rfl, e⟩
    · exact ⟨j, .inl h, e⟩

theorem locals_erase (s : Store V) (hs : s.at_.set.Nodup) (i : Nat) (l : List Nat)
    (hl : l.Perm (s.at_.set.erase i)) (t : Store V) (ht : t.at_.set = l) :
    locals t = (locals s).erase (Ptr.atom i) := by
  ext p
  rw [mem_locals, ht, Finset.mem_erase, mem_locals]
  constructor
  · rintro ⟨j, h, e⟩
    rw [hl.mem_iff, hs.mem_erase_iff] at h
    subst e
    exact ⟨fun e => h.1 (by cases e; rfl), j, h.2, rfl⟩
  · rintro ⟨h1, j, h2, e⟩
    subst e
    exact ⟨j, by rw [hl.mem_iff, hs.mem_erase_iff]; exact ⟨fun e => h1 (by rw [e]), h2⟩, rfl⟩

theorem ghosts_erase (s : Store V) (hs : s.gh.set.Nodup) (i : Nat) (l : List Nat)
    (hl : l.Perm (s.gh.set.erase i)) (t : Store V) (ht : t.gh.set = l) :
    ghosts t = (ghosts s).erase (Ptr.ghost i) := by
  ext p
  rw [mem_ghosts, ht, Finset.mem_erase, mem_ghosts]
  constructor
  · rintro ⟨j, h, e⟩
    rw [hl.mem_iff, hs.mem_erase_iff] at h
    subst e
    exact ⟨fun e => h.1 (by cases e; rfl), j, h.2, rfl⟩
  · rintro ⟨h1, j, h2, e⟩
    subst e
    exact ⟨j, by rw [hl.mem_iff, hs.mem_erase_iff]; exact ⟨fun e => h1 (by rw [e]), h2⟩, rfl⟩

/-- Changing the id of an unregistered atom. -/
theorem Inv.setId {s : Store V} (h : Inv s) {p : Ptr} (hp : p ∉ locals s) (hg : p ∉ ghosts s)
    (i : ℤ) : Rel s.map (Function.update s.ids p i) (locals s) (ghosts s) := by
  refine h.rel.congr ?_
  intro q hq
  rw [Function.update_of_ne]
  rintro rfl
  exact hq.elim hp hg

theorem Inv.pendA {s : Store V} (h : Inv s) {i : Nat} (hp : s.at_.pend = some i) :
    Ptr.atom i ∉ locals s ∧ Ptr.atom i ∉ ghosts s := by
  refine ⟨fun h' => h.at_.pend_notMem hp (atom_mem.1 h'), fun h' => ?_⟩
  obtain ⟨j, _, e⟩ := mem_ghosts.1 h'
  cases e

theorem Inv.pendG {s : Store V} (h : Inv s) {i : Nat} (hp : s.gh.pend = some i) :
    Ptr.ghost i ∉ locals s ∧ Ptr.ghost i ∉ ghosts s := by
  refine ⟨fun h' => ?_, fun h' => h.gh.pend_notMem hp (ghost_mem.1 h')⟩
  obtain ⟨j, _, e⟩ := mem_locals.1 h'
  cases e

/-- The loop of `clearAtoms`. -/
theorem clearAtomsLoop_spec {pick : Pick Ptr} (hpick : pick.OK) (l : List Nat) (s : Store V)
    (h : Inv s) (hl : s.at_.set = l.reverse) :
    ∃ t, clearAtomsLoop pick s l = (t, true) ∧ Inv t ∧ t.at_.set = [] ∧ t.gh = s.gh ∧
      t.ids = s.ids ∧ t.at_.pend = s.at_.pend ∧ t.locked = s.locked ∧ t.cart = s.cart ∧
      t.acap = s.acap ∧ t.gcap = s.gcap ∧ t.map.cap = s.map.cap ∧ t.pos = s.pos := by
  induction l generalizing s with
  | nil =>
    exact ⟨s, rfl, h, hl, rfl, rfl, rfl, rfl, rfl, rfl, rfl, rfl, rfl⟩
  | cons i l ih =>
    have hi : i ∈ s.at_.set := by rw [hl]; simp
    have hiL := atom_mem.2 hi
    have hiG : Ptr.atom i ∉ ghosts s := fun h' => by
      obtain ⟨j, _, e⟩ := mem_ghosts.1 h'; cases e
    obtain ⟨m, e1, e2, e3⟩ := (DdAtomMap.rel_removeLocal hpick h.rel hiG).1 hiL
    have hlen := h.at_.length
    have hpos : 0 < s.at_.set.length := List.length_pos_of_mem hi
    have e4 : push s.acap s.at_.res i = some (i :: s.at_.res) := by
      unfold push; rw [if_neg (by omega)]
    simp only [clearAtomsLoop, e1, e4]
    have hnd := h.at_.set_nodup
    have hnd2 : (i :: l).Nodup := by rw [hl] at hnd; exact List.nodup_reverse.1 hnd
    have hperm : l.reverse.Perm (s.at_.set.erase i) := by
      have h1 : s.at_.set.Perm (i :: l) := by rw [hl]; exact List.reverse_perm _
      exact (List.reverse_perm l).trans
        ((List.perm_cons_erase hi).symm.trans h1).cons_inv.symm
    let s' : Store V := { s with map := m, at_ := ⟨l.reverse, i :: s.at_.res, s.at_.pend⟩ }
    have hs' : Inv s' := by
      refine ⟨⟨List.Perm.trans ?_ h.at_.perm⟩, h.gh, ?_, ?_, h.gflag⟩
      · show (l.reverse ++ i :: s.at_.res ++ s.at_.pend.toList).Perm _
        refine List.Perm.append_right _ ?_
        refine List.perm_middle.trans ?_
        rw [← List.cons_append]
        exact List.Perm.append_right _ ((hperm.cons i).trans (List.perm_cons_erase hi).symm)
      · have := locals_erase s hnd i l.reverse hperm s' rfl
        rw [this, show ghosts s' = ghosts s from rfl]
        exact e3
      · intro j hj
        have : j ∈ s.at_.set.erase i := hperm.mem_iff.1 hj
        exact h.aflag j (List.mem_of_mem_erase this)
    obtain ⟨t, t1, t2, t3, t4, t5, t6, t7, t8, t9, t10, t11, t12⟩ := ih s' hs' rfl
    exact ⟨t, t1, t2, t3, t4, t5, t6, t7, t8, t9, t10, t11.trans e2, t12⟩

/-- The loop of `clearGhosts`. -/
theorem drain_spec (cap : Nat) (l : List Nat) (g : Side)
    (hlen : l.length + g.res.length ≤ cap) :
    drain cap g l = ({ g with set := [], res := l.reverse ++ g.res }, true) := by
  induction l generalizing g with
  | nil => rfl
  | cons i l ih =>
    simp only [List.length_cons] at hlen
    have : push cap g.res i = some (i :: g.res) := by
      unfold push; rw [if_neg (by omega)]
    simp only [drain, this]
    rw [ih]
    · simp
    · simp only [List.length_cons]; omega

theorem inv_clearGhosts {s : Store V} (h : Inv s) (hl : s.locked = false) :
    ∃ t, clearGhosts s = (t, .ok) ∧ Inv t ∧ t.gh.set = [] ∧ t.at_ = s.at_ ∧
      t.ids = s.ids ∧ t.gh.pend = s.gh.pend ∧ t.locked = s.locked ∧ t.cart = s.cart ∧
      t.acap = s.acap ∧ t.gcap = s.gcap ∧ t.map.cap = s.map.cap := by
  have hnd : (s.gh.set.map Ptr.ghost).Nodup :=
    h.gh.set_nodup.map (fun a b e => by cases e; rfl)
  obtain ⟨m, e1, e2, e3, e4, e5⟩ := DdAtomMap.rel_clearGhosts h.rel hnd rfl
  have hlen := h.gh.length
  unfold clearGhosts
  rw [hl, if_neg (by simp), e1]
  simp only
  rw [drain_spec s.gcap s.gh.set.reverse s.gh (by simp; omega)]
  have e6 : m.nGhost = 0 := by rw [e3.nGhost]; simp
  rw [if_pos rfl, if_neg (by simpa using e6), if_neg (by simpa using e5)]
  refine ⟨_, rfl, ⟨h.at_, ⟨?_⟩, ?_, h.aflag, by simp⟩, rfl, rfl, rfl, rfl, hl.symm ▸ rfl, rfl, rfl,
    rfl, e2⟩
  · simp only [List.reverse_reverse, List.nil_append]
    exact h.gh.perm
  · exact e3

end Verif.DdAtomStorage
