import Verif.DdAtomStorage.Lemmas
import Mathlib.Order.Bounds.Basic
import Mathlib.Algebra.Order.Ring.Defs
import Mathlib.Data.List.Nodup
import Mathlib.Tactic.NormNum

/-!
# C08: the atom storage neither loses nor duplicates slots

The specification of every call is the relation `Spec` between what a client can
observe before and after the call: the set of local atoms, the set of ghosts,
the pending pointers, the ids and the lock.
-/

set_option autoImplicit false

namespace Verif.DdAtomStorage

open Verif.DdAtomMap (Map Pick Rel Hole alloc)

variable {V : Type}

/-- What a client observes. -/
structure Abs where
  L : Finset Ptr
  G : Finset Ptr
  pA : Option Ptr
  pG : Option Ptr
  ids : Ptr → ℤ
  locked : Bool
  cart : Bool

/-- The observation of a store: iteration over local atoms and ghosts, the pointers
returned by `newAtomPtr`/`newGhostPtr` and not yet added, ids, lock. -/
def obs (s : Store V) : Abs :=
  { L := (s.at_.set.map Ptr.atom).toFinset
    G := (s.gh.set.map Ptr.ghost).toFinset
    pA := s.at_.pend.map Ptr.atom
    pG := s.gh.pend.map Ptr.ghost
    ids := s.ids
    locked := s.locked
    cart := s.cart }

/-- Specification of the calls: `Spec acap gcap total a op r a'`. -/
def Spec (acap gcap : Nat) (total : ℤ) (a : Abs) (op : Op V) (r : Res) (a' : Abs) : Prop :=
  match op with
  | .newAtomPtr =>
    if a.pA = none ∧ a.locked = false ∧ a.L.card < acap then
      ∃ i, i < acap ∧ Ptr.atom i ∉ a.L ∧ r = .ptr (.atom i) ∧
        a' = { a with pA := some (.atom i), ids := Function.update a.ids (.atom i) (-1) }
    else r = .fail ∧ a' = a
  | .setNewAtomId i => match a.pA with
    | some p => r = .ok ∧ a' = { a with ids := Function.update a.ids p i }
    | none => r = .fail ∧ a' = a
  | .addNewAtom => match a.pA with
    | some p =>
      if a.locked = false ∧ 0 ≤ a.ids p ∧ a.ids p < total ∧ ∀ q ∈ a.L ∪ a.G, a.ids q ≠ a.ids p then
        r = .ok ∧ a' = { a with L := insert p a.L, pA := none }
      else r = .fail ∧ a' = a
    | none => r = .fail ∧ a' = a
  | .removeAtom p =>
    if p ∈ a.L then r = .ok ∧ a' = { a with L := a.L.erase p } else r = .fail ∧ a' = a
  | .clearAtoms =>
    if a.locked then r = .fail ∧ a' = a else r = .ok ∧ a' = { a with L := ∅ }
  | .newGhostPtr =>
    if a.pG = none ∧ a.locked = false ∧ a.G.card < gcap then
      ∃ i, i < gcap ∧ Ptr.ghost i ∉ a.G ∧ r = .ptr (.ghost i) ∧
        a' = { a with pG := some (.ghost i), ids := Function.update a.ids (.ghost i) (-1) }
    else r = .fail ∧ a' = a
  | .setNewGhostId i => match a.pG with
    | some p => r = .ok ∧ a' = { a with ids := Function.update a.ids p i }
    | none => r = .fail ∧ a' = a
  | .addNewGhost => match a.pG with
    | some p =>
      if a.locked = false ∧ 0 ≤ a.ids p ∧ a.ids p < total then
        r = .ok ∧ a' = { a with G := insert p a.G, pG := none }
      else r = .fail ∧ a' = a
    | none => r = .fail ∧ a' = a
  | .removeGhost p =>
    if a.locked = false ∧ p ∈ a.G then r = .ok ∧ a' = { a with G := a.G.erase p }
    else r = .fail ∧ a' = a
  | .clearGhosts =>
    if a.locked then r = .fail ∧ a' = a else r = .ok ∧ a' = { a with G := ∅ }
  | .makeSnapshot =>
    if a.cart then r = .ok ∧ a' = { a with locked := true } else r = .fail ∧ a' = a
  | .clearSnapshot => r = .ok ∧ a' = { a with locked := false }
  | .setPos _ _ => r = .ok ∧ a' = a
  | .transform c _ =>
    if a.cart = c then r = .fail ∧ a' = a else r = .ok ∧ a' = { a with cart := c }

/-- The rules of use: `removeAtom` is not called for a registered ghost, nor
`removeGhost` for a registered local atom. -/
def Allowed (a : Abs) : Op V → Prop
  | .removeAtom p => p ∉ a.G
  | .removeGhost p => p ∉ a.L
  | _ => True

local macro "triv" : term => `(by first | rfl | trivial)

/-- One call preserves the invariant and satisfies its specification. -/
theorem step_spec {pick : Pick Ptr} (hpick : pick.OK) {s : Store V} (h : Inv s) {op : Op V}
    (ho : Allowed (obs s) op) :
    Inv (step pick s op).1 ∧
    Spec s.acap s.gcap s.map.cap (obs s) op (step pick s op).2 (obs (step pick s op).1) ∧
    (step pick s op).1.acap = s.acap ∧ (step pick s op).1.gcap = s.gcap ∧
    (step pick s op).1.map.cap = s.map.cap := by
  have hL : (obs s).L = locals s := rfl
  have hG : (obs s).G = ghosts s := rfl
  cases op with
  | newAtomPtr =>
    simp only [step, newAtomPtr, Spec]
    have hpA : (obs s).pA = none ↔ s.at_.pend = none := by simp [obs]
    by_cases hp : s.at_.pend = none
    swap
    · rw [if_pos hp, if_neg (by rw [hpA]; tauto)]
      exact ⟨h, ⟨triv, triv⟩, triv, triv, triv⟩
    rw [if_neg (by simpa using hp)]
    by_cases hl : s.locked = true
    · rw [if_pos hl, if_neg (by simp [obs, hl])]
      exact ⟨h, ⟨triv, triv⟩, triv, triv, triv⟩
    have hl' : s.locked = false := by simpa using hl
    rw [if_neg hl]
    have hlen := h.at_.length
    rw [hp] at hlen
    simp only [Option.toList_none, List.length_nil, Nat.add_zero] at hlen
    have hcard := card_locals h
    cases hr : s.at_.res with
    | nil =>
      rw [if_neg]
      · exact ⟨h, ⟨triv, triv⟩, triv, triv, triv⟩
      · rw [hr] at hlen
        simp only [List.length_nil, Nat.add_zero] at hlen
        rw [hL, hcard]; omega
    | cons i r =>
      rw [hr] at hlen
      simp only [List.length_cons] at hlen
      rw [if_pos ⟨hpA.2 hp, hl', by rw [hL, hcard]; omega⟩]
      have hok := h.at_.pop hp hr
      have hi := hok.pend_notMem rfl
      have hiL : Ptr.atom i ∉ locals s := fun h' => hi (atom_mem.1 h')
      have hiG : Ptr.atom i ∉ ghosts s := fun h' => by
        obtain ⟨j, _, e⟩ := mem_ghosts.1 h'; cases e
      refine ⟨⟨hok, h.gh, h.setId hiL hiG (-1), ?_, ?_⟩, ⟨i, ?_, hiL, triv, triv⟩, triv, triv, triv⟩
      · intro j hj
        simp only
        rw [Function.update_of_ne (fun e => hi (by cases e; exact hj))]
        exact h.aflag j hj
      · intro j hj
        simp only
        rw [Function.update_of_ne (fun e => by cases e)]
        exact h.gflag j hj
      · have := h.at_.perm.mem_iff.1 (show i ∈ _ by rw [hr]; simp)
        exact List.mem_range.1 this
  | setNewAtomId i =>
    simp only [step, Spec]
    cases hp : s.at_.pend with
    | none =>
      have : (obs s).pA = none := by simp [obs, hp]
      simp only [this]
      exact ⟨h, ⟨triv, triv⟩, triv, triv, triv⟩
    | some k =>
      have : (obs s).pA = some (.atom k) := by simp [obs, hp]
      simp only [this]
      obtain ⟨h1, h2⟩ := h.pendA hp
      refine ⟨⟨h.at_, h.gh, h.setId h1 h2 i, h.aflag, h.gflag⟩, ⟨triv, ?_⟩, triv, triv, triv⟩
      simp [obs, hp]
  | addNewAtom =>
    simp only [step, addNewAtom, Spec]
    cases hp : s.at_.pend with
    | none =>
      have : (obs s).pA = none := by simp [obs, hp]
      simp only [this]
      exact ⟨h, ⟨triv, triv⟩, triv, triv, triv⟩
    | some k =>
      have : (obs s).pA = some (.atom k) := by simp [obs, hp]
      simp only [this]
      by_cases hl : s.locked = true
      · rw [if_pos hl, if_neg (by simp [obs, hl])]
        exact ⟨h, ⟨triv, triv⟩, triv, triv, triv⟩
      have hl' : s.locked = false := by simpa using hl
      rw [if_neg hl]
      obtain ⟨h1, h2⟩ := h.pendA hp
      obtain ⟨a1, a2⟩ := DdAtomMap.rel_addLocal h.rel h1 h2
      cases hm : s.map.addLocal s.ids (.atom k) with
      | none =>
        rw [if_neg]
        · exact ⟨h, ⟨triv, triv⟩, triv, triv, triv⟩
        · rintro ⟨_, c1, c2, c3⟩
          rcases a2 hm with a2 | ⟨q, hq, e⟩
          · exact a2 ⟨c1, c2⟩
          · exact c3 q (by rw [Finset.mem_union, hL, hG]; exact hq) e
      | some m =>
        obtain ⟨r1, r2, r3, r4⟩ := a1 m hm
        obtain ⟨b1, b2⟩ := h.at_.append hp
        rw [if_pos ⟨hl', r1.1, r1.2, fun q hq => r2 q (by
          rw [Finset.mem_union, hL, hG] at hq; exact hq)⟩]
        simp only [b1]
        let t : Store V := { s with map := m, at_ := ⟨s.at_.set ++ [k], s.at_.res, none⟩,
                                    flag := Function.update s.flag (.atom k) false }
        have hlt : locals t = insert (Ptr.atom k) (locals s) := locals_append s k _ rfl t rfl
        refine ⟨⟨b2, h.gh, ?_, ?_, ?_⟩, ⟨triv, ?_⟩, triv, triv, r3⟩
        · show Rel m s.ids (locals t) (ghosts s)
          rw [hlt]; exact r4
        · intro j hj
          simp only
          by_cases hjk : j = k
          · subst hjk; simp
          · rw [Function.update_of_ne (fun e => hjk (by cases e; rfl))]
            simp only [List.mem_append, List.mem_singleton, hjk, or_false] at hj
            exact h.aflag j hj
        · intro j hj
          simp only
          rw [Function.update_of_ne (fun e => by cases e)]
          exact h.gflag j hj
        · have : (obs t).L = insert (Ptr.atom k) (obs s).L := hlt
          show obs t = _
          rw [← this]
          rfl
  | removeAtom p =>
    simp only [step, removeAtom, Spec]
    have ho' : p ∉ ghosts s := ho
    obtain ⟨a1, a2⟩ := DdAtomMap.rel_removeLocal hpick h.rel ho'
    by_cases hpL : p ∈ locals s
    · rw [if_pos (by rw [hL]; exact hpL)]
      obtain ⟨m, e1, e2, e3⟩ := a1 hpL
      obtain ⟨i, hi, rfl⟩ := mem_locals.1 hpL
      obtain ⟨l, b1, b2, b3, b4⟩ := h.at_.remove hi
      simp only [e1, b1, b3]
      let t : Store V := { s with map := m, at_ := ⟨l, i :: s.at_.res, s.at_.pend⟩ }
      have hlt : locals t = (locals s).erase (Ptr.atom i) :=
        locals_erase s h.at_.set_nodup i l b2 t rfl
      refine ⟨⟨b4, h.gh, ?_, ?_, h.gflag⟩, ⟨triv, ?_⟩, triv, triv, e2⟩
      · show Rel m s.ids (locals t) (ghosts s)
        rw [hlt]; exact e3
      · intro j hj
        exact h.aflag j (List.mem_of_mem_erase (b2.mem_iff.1 hj))
      · have : (obs t).L = (obs s).L.erase (Ptr.atom i) := hlt
        show obs t = _
        rw [← this]; rfl
    · rw [if_neg (by rw [hL]; exact hpL), a2 hpL]
      exact ⟨h, ⟨triv, triv⟩, triv, triv, triv⟩
  | clearAtoms =>
    simp only [step, clearAtoms, Spec]
    by_cases hl : s.locked = true
    · rw [if_pos hl, if_pos (show (obs s).locked = true from hl)]
      exact ⟨h, ⟨triv, triv⟩, triv, triv, triv⟩
    rw [if_neg hl, if_neg (show ¬ (obs s).locked = true from hl)]
    obtain ⟨t, t1, t2, t3, t4, t5, t6, t7, t8, t9, t10, t11, _⟩ :=
      clearAtomsLoop_spec hpick s.at_.set.reverse s h (by simp)
    simp only [t1, if_true]
    have hn : t.map.nLocal = 0 := by
      rw [t2.rel.nL]
      simp [locals, t3]
    rw [if_neg (by simpa using hn)]
    refine ⟨t2, ⟨triv, ?_⟩, t9, t10, t11⟩
    simp only [obs, t3, t4, t5, t6, t7, t8, List.map_nil, List.toFinset_nil]
  | newGhostPtr =>
    simp only [step, newGhostPtr, Spec]
    have hpG : (obs s).pG = none ↔ s.gh.pend = none := by simp [obs]
    by_cases hp : s.gh.pend = none
    swap
    · rw [if_pos hp, if_neg (by rw [hpG]; tauto)]
      exact ⟨h, ⟨triv, triv⟩, triv, triv, triv⟩
    rw [if_neg (by simpa using hp)]
    by_cases hl : s.locked = true
    · rw [if_pos hl, if_neg (by simp [obs, hl])]
      exact ⟨h, ⟨triv, triv⟩, triv, triv, triv⟩
    have hl' : s.locked = false := by simpa using hl
    rw [if_neg hl]
    have hlen := h.gh.length
    rw [hp] at hlen
    simp only [Option.toList_none, List.length_nil, Nat.add_zero] at hlen
    have hcard := card_ghosts h
    cases hr : s.gh.res with
    | nil =>
      rw [if_neg]
      · exact ⟨h, ⟨triv, triv⟩, triv, triv, triv⟩
      · rw [hr] at hlen
        simp only [List.length_nil, Nat.add_zero] at hlen
        rw [hG, hcard]; omega
    | cons i r =>
      rw [hr] at hlen
      simp only [List.length_cons] at hlen
      rw [if_pos ⟨hpG.2 hp, hl', by rw [hG, hcard]; omega⟩]
      have hok := h.gh.pop hp hr
      have hi := hok.pend_notMem rfl
      have hiG : Ptr.ghost i ∉ ghosts s := fun h' => hi (ghost_mem.1 h')
      have hiL : Ptr.ghost i ∉ locals s := fun h' => by
        obtain ⟨j, _, e⟩ := mem_locals.1 h'; cases e
      refine ⟨⟨h.at_, hok, h.setId hiL hiG (-1), ?_, ?_⟩, ⟨i, ?_, hiG, triv, triv⟩, triv, triv, triv⟩
      · intro j hj
        simp only
        rw [Function.update_of_ne (fun e => by cases e)]
        exact h.aflag j hj
      · intro j hj
        simp only
        rw [Function.update_of_ne (fun e => hi (by cases e; exact hj))]
        exact h.gflag j hj
      · have := h.gh.perm.mem_iff.1 (show i ∈ _ by rw [hr]; simp)
        exact List.mem_range.1 this
  | setNewGhostId i =>
    simp only [step, Spec]
    cases hp : s.gh.pend with
    | none =>
      have : (obs s).pG = none := by simp [obs, hp]
      simp only [this]
      exact ⟨h, ⟨triv, triv⟩, triv, triv, triv⟩
    | some k =>
      have : (obs s).pG = some (.ghost k) := by simp [obs, hp]
      simp only [this]
      obtain ⟨h1, h2⟩ := h.pendG hp
      refine ⟨⟨h.at_, h.gh, h.setId h1 h2 i, h.aflag, h.gflag⟩, ⟨triv, ?_⟩, triv, triv, triv⟩
      simp [obs, hp]
  | addNewGhost =>
    simp only [step, addNewGhost, Spec]
    cases hp : s.gh.pend with
    | none =>
      have : (obs s).pG = none := by simp [obs, hp]
      simp only [this]
      exact ⟨h, ⟨triv, triv⟩, triv, triv, triv⟩
    | some k =>
      have : (obs s).pG = some (.ghost k) := by simp [obs, hp]
      simp only [this]
      by_cases hl : s.locked = true
      · rw [if_pos hl, if_neg (by simp [obs, hl])]
        exact ⟨h, ⟨triv, triv⟩, triv, triv, triv⟩
      have hl' : s.locked = false := by simpa using hl
      rw [if_neg hl]
      obtain ⟨h1, h2⟩ := h.pendG hp
      obtain ⟨a1, a2⟩ := DdAtomMap.rel_addGhost h.rel h1 h2
      by_cases hr : 0 ≤ s.ids (.ghost k) ∧ s.ids (.ghost k) < s.map.cap
      · obtain ⟨m, e1, e2, e3⟩ := a1 hr
        obtain ⟨b1, b2⟩ := h.gh.append hp
        rw [if_pos ⟨hl', hr⟩]
        simp only [e1, b1]
        let t : Store V := { s with map := m, gh := ⟨s.gh.set ++ [k], s.gh.res, none⟩,
                                    flag := Function.update s.flag (.ghost k) true }
        have hlt : ghosts t = insert (Ptr.ghost k) (ghosts s) := ghosts_append s k _ rfl t rfl
        refine ⟨⟨h.at_, b2, ?_, ?_, ?_⟩, ⟨triv, ?_⟩, triv, triv, e2⟩
        · show Rel m s.ids (locals s) (ghosts t)
          rw [hlt]; exact e3
        · intro j hj
          simp only
          rw [Function.update_of_ne (fun e => by cases e)]
          exact h.aflag j hj
        · intro j hj
          simp only
          by_cases hjk : j = k
          · subst hjk; simp
          · rw [Function.update_of_ne (fun e => hjk (by cases e; rfl))]
            simp only [List.mem_append, List.mem_singleton, hjk, or_false] at hj
            exact h.gflag j hj
        · have : (obs t).G = insert (Ptr.ghost k) (obs s).G := hlt
          show obs t = _
          rw [← this]
          rfl
      · rw [if_neg (fun hc => hr hc.2), a2 hr]
        exact ⟨h, ⟨triv, triv⟩, triv, triv, triv⟩
  | removeGhost p =>
    simp only [step, removeGhost, Spec]
    by_cases hl : s.locked = true
    · rw [if_pos hl, if_neg (by simp [obs, hl])]
      exact ⟨h, ⟨triv, triv⟩, triv, triv, triv⟩
    have hl' : s.locked = false := by simpa using hl
    rw [if_neg hl]
    have ho' : p ∉ locals s := ho
    obtain ⟨a1, a2⟩ := DdAtomMap.rel_removeGhost hpick h.rel ho'
    by_cases hpL : p ∈ ghosts s
    · rw [if_pos ⟨hl', by rw [hG]; exact hpL⟩]
      obtain ⟨m, e1, e2, e3⟩ := a1 hpL
      obtain ⟨i, hi, rfl⟩ := mem_ghosts.1 hpL
      obtain ⟨l, b1, b2, b3, b4⟩ := h.gh.remove hi
      simp only [e1, b1, b3]
      let t : Store V := { s with map := m, gh := ⟨l, i :: s.gh.res, s.gh.pend⟩ }
      have hlt : ghosts t = (ghosts s).erase (Ptr.ghost i) :=
        ghosts_erase s h.gh.set_nodup i l b2 t rfl
      refine ⟨⟨h.at_, b4, ?_, h.aflag, ?_⟩, ⟨triv, ?_⟩, triv, triv, e2⟩
      · show Rel m s.ids (locals s) (ghosts t)
        rw [hlt]; exact e3
      · intro j hj
        exact h.gflag j (List.mem_of_mem_erase (b2.mem_iff.1 hj))
      · have : (obs t).G = (obs s).G.erase (Ptr.ghost i) := hlt
        show obs t = _
        rw [← this]; rfl
    · rw [if_neg (fun hc => hpL hc.2), a2 hpL]
      exact ⟨h, ⟨triv, triv⟩, triv, triv, triv⟩
  | clearGhosts =>
    simp only [step, Spec]
    by_cases hl : s.locked = true
    · rw [if_pos (show (obs s).locked = true from hl)]
      have : clearGhosts s = (s, .fail) := by unfold clearGhosts; rw [if_pos hl]
      rw [this]
      exact ⟨h, ⟨triv, triv⟩, triv, triv, triv⟩
    rw [if_neg (show ¬ (obs s).locked = true from hl)]
    obtain ⟨t, t1, t2, t3, t4, t5, t6, t7, t8, t9, t10, t11⟩ :=
      inv_clearGhosts h (by simpa using hl)
    rw [t1]
    refine ⟨t2, ⟨triv, ?_⟩, t9, t10, t11⟩
    simp only [obs, t3, t4, t5, t6, t7, t8, List.map_nil, List.toFinset_nil]
  | makeSnapshot =>
    simp only [step, makeSnapshot, Spec]
    by_cases hc : s.cart = true
    · rw [if_neg (by simpa using hc), if_pos (show (obs s).cart = true from hc)]
      exact ⟨⟨h.at_, h.gh, h.rel, h.aflag, h.gflag⟩, ⟨triv, triv⟩, triv, triv, triv⟩
    · rw [if_pos (by simpa using hc), if_neg (show ¬ (obs s).cart = true from hc)]
      exact ⟨h, ⟨triv, triv⟩, triv, triv, triv⟩
  | clearSnapshot =>
    exact ⟨⟨h.at_, h.gh, h.rel, h.aflag, h.gflag⟩, ⟨triv, triv⟩, triv, triv, triv⟩
  | setPos p x =>
    exact ⟨⟨h.at_, h.gh, h.rel, h.aflag, h.gflag⟩, ⟨triv, triv⟩, triv, triv, triv⟩
  | transform c f =>
    simp only [step, transform, Spec]
    by_cases hc : s.cart = c
    · rw [if_pos hc, if_pos (show (obs s).cart = c from hc)]
      exact ⟨h, ⟨triv, triv⟩, triv, triv, triv⟩
    · rw [if_neg hc, if_neg (show ¬ (obs s).cart = c from hc)]
      exact ⟨⟨h.at_, h.gh, h.rel, h.aflag, h.gflag⟩, ⟨triv, triv⟩, triv, triv, triv⟩

/-- Every call of the history obeys the rules of use. -/
def AllowedHist (pick : Pick Ptr) (s : Store V) : List (Op V) → Prop
  | [] => True
  | op :: ops => Allowed (obs s) op ∧ AllowedHist pick (step pick s op).1 ops

/-- The observations along a history are related call by call by the
specification. -/
def SpecHist (acap gcap : Nat) (total : ℤ) (pick : Pick Ptr) (s : Store V) : List (Op V) → Prop
  | [] => True
  | op :: ops =>
    Spec acap gcap total (obs s) op (step pick s op).2 (obs (step pick s op).1) ∧
    SpecHist acap gcap total pick (step pick s op).1 ops

theorem run_spec {pick : Pick Ptr} (hpick : pick.OK) (ops : List (Op V)) {s : Store V} (h : Inv s)
    (ho : AllowedHist pick s ops) :
    Inv (run pick s ops) ∧ SpecHist s.acap s.gcap s.map.cap pick s ops ∧
    (run pick s ops).acap = s.acap ∧ (run pick s ops).gcap = s.gcap ∧
    (run pick s ops).map.cap = s.map.cap := by
  induction ops generalizing s with
  | nil => exact ⟨h, trivial, rfl, rfl, rfl⟩
  | cons op ops ih =>
    obtain ⟨h1, h2, h3, h4, h5⟩ := step_spec hpick h ho.1
    obtain ⟨r1, r2, r3, r4, r5⟩ := ih h1 ho.2
    rw [h3, h4, h5] at r2
    exact ⟨r1, ⟨h2, r2⟩, r3.trans h3, r4.trans h4, r5.trans h5⟩

/-- **C08, slots.** After every history, every slot of the two arrays is in exactly
one of the three places: active set, reservoir, pending. -/
theorem C08_slots_conserved {pick : Pick Ptr} (hpick : pick.OK) (acap gcap : Nat) (total : ℤ)
    (pos : Ptr → V) (snap : Nat → V) (ops : List (Op V))
    (ho : AllowedHist pick (init acap gcap total pos snap) ops) (i : Nat) :
    let t := run pick (init acap gcap total pos snap) ops
    t.at_.set.count i + t.at_.res.count i + t.at_.pend.toList.count i = (if i < acap then 1 else 0) ∧
    t.gh.set.count i + t.gh.res.count i + t.gh.pend.toList.count i = (if i < gcap then 1 else 0) := by
  intro t
  obtain ⟨h1, -, h3, h4, -⟩ := run_spec hpick ops (inv_init acap gcap total pos snap) ho
  have key : ∀ (cap : Nat) (g : Side), g.OK cap →
      g.set.count i + g.res.count i + g.pend.toList.count i = (if i < cap then 1 else 0) := by
    intro cap g hg
    have := hg.perm.count_eq i
    rw [List.count_append, List.count_append] at this
    rw [this]
    by_cases hi : i < cap
    · rw [if_pos hi, List.count_eq_one_of_mem List.nodup_range (List.mem_range.2 hi)]
    · rw [if_neg hi, List.count_eq_zero]
      simpa using hi
  have k1 := key _ _ h1.at_
  have k2 := key _ _ h1.gh
  rw [h3] at k1
  rw [h4] at k2
  exact ⟨k1, k2⟩

/-- **C08, calls.** Along every history, including its failing calls, every call
satisfies its specification; in particular creation fails exactly when the
capacity is exhausted, the storage is locked or another atom is pending, and a
failing call changes nothing. -/
theorem C08_calls {pick : Pick Ptr} (hpick : pick.OK) (acap gcap : Nat) (total : ℤ)
    (pos : Ptr → V) (snap : Nat → V) (ops : List (Op V))
    (ho : AllowedHist pick (init acap gcap total pos snap) ops) :
    SpecHist acap gcap total pick (init acap gcap total pos snap) ops :=
  (run_spec hpick ops (inv_init acap gcap total pos snap) ho).2.1

/-- **C08, answers.** After every history: an iteration visits each local atom once
and `nAtom` is their number, likewise for ghosts; looking up an id gives the local
atom with this id, else a ghost, else null; and the validity check passes as soon
as nothing is pending. -/
theorem C08_answers {pick : Pick Ptr} (hpick : pick.OK) (acap gcap : Nat) (total : ℤ)
    (pos : Ptr → V) (snap : Nat → V) (ops : List (Op V))
    (ho : AllowedHist pick (init acap gcap total pos snap) ops) :
    let t := run pick (init acap gcap total pos snap) ops
    t.at_.set.Nodup ∧ t.at_.set.length = (obs t).L.card ∧
    t.gh.set.Nodup ∧ t.gh.set.length = (obs t).G.card ∧
    DdAtomMap.Agrees total ⟨t.map, t.ids⟩ ⟨(obs t).L, (obs t).G, t.ids⟩ ∧
    ((obs t).pA = none → (obs t).pG = none → isValid t) := by
  intro t
  obtain ⟨h1, -, -, -, h5⟩ := run_spec hpick ops (inv_init acap gcap total pos snap) ho
  refine ⟨h1.at_.set_nodup, (card_locals h1).symm, h1.gh.set_nodup, (card_ghosts h1).symm, ?_, ?_⟩
  · have := DdAtomMap.agrees_of_rel (a := ⟨(obs t).L, (obs t).G, t.ids⟩) h1.rel
    rw [h5] at this
    exact this
  · intro ha hg
    refine h1.isValid ?_ ?_
    · simpa [obs] using ha
    · simpa [obs] using hg

/-- The validity check fails while an atom is pending: it counts the pending slot
as lost. -/
theorem C08_isValid_pending {s : Store V} (h : Inv s) {i : Nat} (hp : s.at_.pend = some i) :
    ¬ isValid s := by
  rintro ⟨h1, -⟩
  have := h.at_.length
  rw [hp] at this
  simp only [Option.toList_some, List.length_singleton] at this
  omega

/-! ## Non-vacuity -/

/-- Capacity 2: two atoms are created, a third creation fails; a duplicate id is
refused and then corrected; an atom is removed and its slot used again. -/
def demo : List (Op Unit) :=
  [.newAtomPtr, .setNewAtomId 7, .addNewAtom, .newAtomPtr, .setNewAtomId 7, .addNewAtom,
   .setNewAtomId 8, .addNewAtom, .newAtomPtr, .newGhostPtr, .setNewGhostId 7, .addNewGhost,
   .removeAtom (.atom 0), .newAtomPtr, .setNewAtomId 9, .addNewAtom]

example : AllowedHist DdAtomMap.firstPick (init 2 1 10 (fun _ => ()) (fun _ => ())) demo := by
  simp only [demo, AllowedHist, Allowed, and_true, true_and]
  decide

example : (run DdAtomMap.firstPick (init 2 1 10 (fun _ => ()) (fun _ => ())) demo).at_.set = [1, 0] := by
  decide

/-! ## Removing an atom of the wrong kind -/

/-- `removeGhost` called for a local atom throws, but only after the map has
forgotten the atom; `clearAtoms` then throws as well and a slot is lost for good:
it is neither active, nor free, nor pending. -/
theorem C08_wrong_kind_loses_slot :
    let s0 : Store Unit := init 2 1 10 (fun _ => ()) (fun _ => ())
    let s1 := run DdAtomMap.firstPick s0 [.newAtomPtr, .setNewAtomId 7, .addNewAtom]
    let s2 := step DdAtomMap.firstPick s1 (.removeGhost (.atom 0))
    let s3 := step DdAtomMap.firstPick s2.1 .clearAtoms
    s2.2 = .fail ∧ s2.1.map.find 7 = none ∧ s3.2 = .fail ∧
    0 ∉ s3.1.at_.set ∧ 0 ∉ s3.1.at_.res ∧ s3.1.at_.pend = none := by
  decide

/-! ## C48: displacement since the snapshot -/

/-- Calls that do not interfere with the snapshot. -/
def Quiet : Op V → Prop
  | .removeAtom _ => False
  | .clearSnapshot => False
  | .makeSnapshot => False
  | _ => True

theorem quiet_step (pick : Pick Ptr) {s : Store V} (hl : s.locked = true) {op : Op V}
    (hq : Quiet op) :
    (step pick s op).1.locked = true ∧ (step pick s op).1.at_.set = s.at_.set ∧
    (step pick s op).1.snap = s.snap := by
  cases op with
  | newAtomPtr => simp only [step, newAtomPtr]; split <;> simp_all
  | setNewAtomId i => simp only [step]; split <;> simp_all
  | addNewAtom => simp only [step, addNewAtom]; split <;> simp_all
  | removeAtom p => cases hq
  | clearAtoms => simp only [step, clearAtoms]; simp_all
  | newGhostPtr => simp only [step, newGhostPtr]; split <;> simp_all
  | setNewGhostId i => simp only [step]; split <;> simp_all
  | addNewGhost => simp only [step, addNewGhost]; split <;> simp_all
  | removeGhost p => simp only [step, removeGhost]; simp_all
  | clearGhosts => simp only [step, clearGhosts]; simp_all
  | makeSnapshot => cases hq
  | clearSnapshot => cases hq
  | setPos p x => exact ⟨hl, rfl, rfl⟩
  | transform c f => simp only [step, transform]; split <;> simp_all

theorem quiet_run (pick : Pick Ptr) (ops : List (Op V)) {s : Store V} (hl : s.locked = true)
    (hq : ∀ op ∈ ops, Quiet op) :
    (run pick s ops).locked = true ∧ (run pick s ops).at_.set = s.at_.set ∧
    (run pick s ops).snap = s.snap := by
  induction ops generalizing s with
  | nil => exact ⟨hl, rfl, rfl⟩
  | cons op ops ih =>
    obtain ⟨h1, h2, h3⟩ := quiet_step pick hl (hq op (by simp))
    obtain ⟨r1, r2, r3⟩ := ih h1 (fun o ho => hq o (by simp [ho]))
    exact ⟨r1, r2.trans h2, r3.trans h3⟩

theorem foldl_max {R : Type} [LinearOrder R] (l : List R) (a : R) :
    IsGreatest (insert a {x | x ∈ l}) (l.foldl (fun m x => if m < x then x else m) a) := by
  induction l generalizing a with
  | nil => simp
  | cons b l ih =>
    simp only [List.foldl_cons]
    obtain ⟨h1, h2⟩ := ih (if a < b then b else a)
    by_cases hab : a < b
    · rw [if_pos hab] at *
      refine ⟨?_, ?_⟩
      · rcases h1 with h1 | h1
        · rw [h1]; right; simp
        · right; simp only [Set.mem_ofPred_eq, List.mem_cons]; right; exact h1
      · rintro x (rfl | hx)
        · exact hab.le.trans (h2 (.inl rfl))
        · rcases List.mem_cons.1 hx with rfl | hx
          · exact h2 (.inl rfl)
          · exact h2 (.inr hx)
    · rw [if_neg hab] at *
      refine ⟨?_, ?_⟩
      · rcases h1 with h1 | h1
        · left; exact h1
        · right; simp only [Set.mem_ofPred_eq, List.mem_cons]; right; exact h1
      · rintro x (rfl | hx)
        · exact h2 (.inl rfl)
        · rcases List.mem_cons.1 hx with rfl | hx
          · exact (not_lt.1 hab).trans (h2 (.inl rfl))
          · exact h2 (.inr hx)

/-- **C48.** Between a snapshot and the next removal of an atom, whatever else is
called, the reported displacement is the largest squared displacement `d x y` of a
local atom from its position `y` at the time of the snapshot (zero if there are no
atoms); the set of local atoms is still the one of the snapshot. -/
theorem C48_displacement {R : Type} [LinearOrder R] [Zero R] (d : V → V → R) (pick : Pick Ptr)
    (s : Store V) (hc : s.cart = true) (ops : List (Op V)) (hq : ∀ op ∈ ops, Quiet op)
    (ht : (run pick (makeSnapshot s).1 ops).cart = true) :
    let t := run pick (makeSnapshot s).1 ops
    (obs t).L = (obs s).L ∧
    ∃ M, maxSqDisplacement d t = some M ∧
      IsGreatest (insert 0 {x | ∃ p ∈ (obs s).L, x = d (t.pos p) (s.pos p)}) M := by
  intro t
  have hs : (makeSnapshot s).1 = { s with
      snap := fun k => match s.at_.set[k]? with
                    | some i => s.pos (.atom i)
                    | none => s.snap k
      locked := true } := by
    unfold makeSnapshot; rw [if_neg (by simpa using hc)]; rfl
  obtain ⟨h1, h2, h3⟩ := quiet_run pick ops (s := (makeSnapshot s).1) (by rw [hs]) hq
  have h2' : t.at_.set = s.at_.set := by rw [h2, hs]
  have h3' : t.snap = fun k => match s.at_.set[k]? with
                    | some i => s.pos (.atom i)
                    | none => s.snap k := by rw [h3, hs]
  refine ⟨by simp only [obs, h2'], ?_⟩
  unfold maxSqDisplacement
  rw [if_neg (by simpa using ht), if_neg (by simpa using h1)]
  refine ⟨_, rfl, ?_⟩
  have := foldl_max (t.at_.set.zipIdx.map (fun e => d (t.pos (.atom e.1)) (t.snap e.2))) 0
  convert this using 2
  ext x
  simp only [Set.mem_ofPred_eq, List.mem_map, Prod.exists, obs, List.mem_toFinset]
  constructor
  · rintro ⟨p, ⟨i, hi, rfl⟩, rfl⟩
    obtain ⟨k, hk, e⟩ := List.mem_iff_getElem.1 hi
    refine ⟨i, k, ?_, ?_⟩
    · rw [List.mem_zipIdx_iff_getElem?, h2', List.getElem?_eq_getElem hk, e]
    · rw [h3']
      simp only [List.getElem?_eq_getElem hk, e]
  · rintro ⟨i, k, hik, rfl⟩
    rw [List.mem_zipIdx_iff_getElem?, h2'] at hik
    simp only at hik
    refine ⟨.atom i, ⟨i, List.mem_of_getElem? hik, rfl⟩, ?_⟩
    rw [h3']
    simp only [hik]

/-- While locked, `removeAtom` is not refused, unlike the five other calls that
change the sets, and then displacements are attributed to the wrong atoms: here
no atom has moved, and yet the reported maximum is 100. -/
theorem C48_removal_while_locked :
    let s0 : Store Int := init 3 1 10 (fun _ => 0) (fun _ => 0)
    let add (i : ℤ) (k : Nat) (x : Int) : List (Op Int) :=
      [.newAtomPtr, .setNewAtomId i, .addNewAtom, .setPos (.atom k) x]
    let s1 := run DdAtomMap.firstPick s0
      (.transform true id :: (add 0 0 0 ++ add 1 1 5 ++ add 2 2 10))
    let s2 := (makeSnapshot s1).1
    let s3 := removeAtom DdAtomMap.firstPick s2 (.atom 0)
    maxSqDisplacement (fun x y => (x - y) * (x - y)) s2 = some 0 ∧ s3.2 = .ok ∧
    s3.1.pos = s2.pos ∧
    maxSqDisplacement (fun x y => (x - y) * (x - y)) s3.1 = some 100 := by
  refine ⟨by decide, by decide, ?_, by decide⟩
  rfl

/-! ## C49: coordinate transformations -/

theorem mapPos_apply (f : V → V) (l : List Ptr) (hnd : l.Nodup) (pos : Ptr → V) (p : Ptr) :
    mapPos f pos l p = if p ∈ l then f (pos p) else pos p := by
  unfold mapPos
  induction l generalizing pos with
  | nil => simp
  | cons a l ih =>
    rw [List.nodup_cons] at hnd
    simp only [List.foldl_cons]
    rw [ih hnd.2]
    by_cases hpa : p = a
    · subst hpa
      rw [if_neg hnd.1, if_pos (by simp)]
      simp
    · rw [Function.update_of_ne hpa]
      simp [hpa]

/-- **C49.** After every history, a coordinate transformation is refused iff the
coordinates are already of the requested kind; otherwise it applies the
transformation exactly once to every local atom and every ghost, and to no other
atom; and the opposite transformation with the inverse function restores all
positions. -/
theorem C49_transform {pick : Pick Ptr} (hpick : pick.OK) (acap gcap : Nat) (total : ℤ)
    (pos : Ptr → V) (snap : Nat → V) (ops : List (Op V))
    (ho : AllowedHist pick (init acap gcap total pos snap) ops) (c : Bool) (f g : V → V) :
    let t := run pick (init acap gcap total pos snap) ops
    (t.cart = c → transform c f t = (t, .fail)) ∧
    (t.cart ≠ c → (transform c f t).2 = .ok ∧ (transform c f t).1.cart = c ∧
      (∀ p, (transform c f t).1.pos p
        = if p ∈ (obs t).L ∪ (obs t).G then f (t.pos p) else t.pos p) ∧
      ((∀ x, g (f x) = x) →
        (transform (!c) g (transform c f t).1).2 = .ok ∧
        (transform (!c) g (transform c f t).1).1 = t)) := by
  intro t
  obtain ⟨h1, -⟩ := run_spec hpick ops (inv_init acap gcap total pos snap) ho
  have ha : (t.at_.set.map Ptr.atom).Nodup :=
    h1.at_.set_nodup.map (fun a b e => by cases e; rfl)
  have hg : (t.gh.set.map Ptr.ghost).Nodup :=
    h1.gh.set_nodup.map (fun a b e => by cases e; rfl)
  have key : ∀ (f : V → V) (q : Ptr → V) (p : Ptr),
      mapPos f (mapPos f q (t.at_.set.map Ptr.atom)) (t.gh.set.map Ptr.ghost) p
        = if p ∈ (obs t).L ∪ (obs t).G then f (q p) else q p := by
    intro f q p
    rw [mapPos_apply f _ hg, mapPos_apply f _ ha]
    simp only [obs, Finset.mem_union, List.mem_toFinset]
    cases p with
    | atom i => simp
    | ghost i => simp
  constructor
  · intro hc; unfold transform; rw [if_pos hc]
  · intro hc
    have e : transform c f t = ({ t with
        pos := mapPos f (mapPos f t.pos (t.at_.set.map Ptr.atom)) (t.gh.set.map Ptr.ghost)
        cart := c }, .ok) := by unfold transform; rw [if_neg hc]
    rw [e]
    refine ⟨rfl, rfl, key f t.pos, ?_⟩
    intro hgf
    have hcc : c ≠ !c := by cases c <;> simp
    have htc : t.cart = !c := by
      cases h' : t.cart <;> cases c <;> simp_all
    unfold transform
    rw [if_neg (by simp)]
    refine ⟨rfl, ?_⟩
    simp only
    have : mapPos g (mapPos g (mapPos f (mapPos f t.pos (t.at_.set.map Ptr.atom))
        (t.gh.set.map Ptr.ghost)) (t.at_.set.map Ptr.atom)) (t.gh.set.map Ptr.ghost) = t.pos := by
      funext p
      rw [key g, key f]
      split
      · exact hgf _
      · rfl
    rw [this, ← htc]

end Verif.DdAtomStorage
