import Verif.DdAtomMap.Lemmas

/-!
# C07: the atom map answers lookups correctly after any history

The specification is a pair of finite sets: the registered local atoms `L` and
the registered ghosts `G`, with the current id of every atom object.
-/

set_option autoImplicit false

namespace Verif.DdAtomMap

variable {P : Type} [DecidableEq P]

/-- What a client knows: which atoms it has registered. -/
structure Abs (P : Type) where
  L : Finset P
  G : Finset P
  ids : P → ℤ

/-- Effect of a call on the registered atoms, and whether it should be accepted.
An addition is refused for an id out of range; a local addition is refused when
any registered atom (local or ghost) has this id. -/
def Abs.step (cap : ℤ) (a : Abs P) : Op P → Abs P × Bool
  | .addLocal p i =>
    let a' := { a with ids := Function.update a.ids p i }
    if 0 ≤ i ∧ i < cap ∧ ∀ q ∈ a.L ∪ a.G, a.ids q ≠ i then ({ a' with L := insert p a.L }, true)
    else (a', false)
  | .removeLocal p => if p ∈ a.L then ({ a with L := a.L.erase p }, true) else (a, false)
  | .addGhost p i =>
    let a' := { a with ids := Function.update a.ids p i }
    if 0 ≤ i ∧ i < cap then ({ a' with G := insert p a.G }, true) else (a', false)
  | .removeGhost p => if p ∈ a.G then ({ a with G := a.G.erase p }, true) else (a, false)
  | .clearGhosts _ => ({ a with G := ∅ }, true)

/-- The rules of use: only unregistered atoms are added (and given a new id), a
removal does not name an atom of the other kind, and `clearGhosts` receives the
registered ghosts, in any order. -/
def Abs.Allowed (a : Abs P) : Op P → Prop
  | .addLocal p _ => p ∉ a.L ∧ p ∉ a.G
  | .removeLocal p => p ∉ a.G
  | .addGhost p _ => p ∉ a.L ∧ p ∉ a.G
  | .removeGhost p => p ∉ a.L
  | .clearGhosts gs => gs.Nodup ∧ gs.toFinset = a.G

/-- Every call of a history obeys the rules of use. -/
def Abs.AllowedHist (cap : ℤ) (a : Abs P) : List (Op P) → Prop
  | [] => True
  | op :: ops => a.Allowed op ∧ Abs.AllowedHist cap (a.step cap op).1 ops

def Abs.run (cap : ℤ) (a : Abs P) (ops : List (Op P)) : Abs P :=
  ops.foldl (fun a op => (a.step cap op).1) a

/-- The answers of the map agree with the registered atoms. -/
structure Agrees (cap : ℤ) (w : W P) (a : Abs P) : Prop where
  ids : w.ids = a.ids
  /-- a local atom is found -/
  local_ : ∀ p ∈ a.L, w.m.find (a.ids p) = some p
  /-- without a local atom, some ghost with the id is found -/
  ghost : ∀ i, (∀ p ∈ a.L, a.ids p ≠ i) → (∃ p ∈ a.G, a.ids p = i) →
    ∃ q ∈ a.G, a.ids q = i ∧ w.m.find i = some q
  /-- otherwise null -/
  none_ : ∀ i, (∀ p ∈ a.L, a.ids p ≠ i) → (∀ p ∈ a.G, a.ids p ≠ i) → w.m.find i = none
  /-- no two local atoms share an id, and ids are in range -/
  inj : ∀ p ∈ a.L, ∀ q ∈ a.L, a.ids p = a.ids q → p = q
  range : ∀ p ∈ a.L ∪ a.G, 0 ≤ a.ids p ∧ a.ids p < cap
  nLocal : w.m.nLocal = a.L.card
  nGhost : w.m.nGhost = a.G.card
  /-- the number of distinct ids of ghosts that are not ids of local atoms -/
  nDistinct : w.m.nDistinct = (a.G.image a.ids \ a.L.image a.ids).card
  valid : w.m.isValid w.ids
  cap : w.m.cap = cap

theorem agrees_of_rel {m : Map P} {a : Abs P} (h : Rel m a.ids a.L a.G) :
    Agrees m.cap ⟨m, a.ids⟩ a := by
  refine ⟨rfl, h.loc, ?_, ?_, h.inj, ?_, h.nL, h.nGhost, ?_, Rel.isValid h, rfl⟩
  · rintro i hl ⟨p, hp, rfl⟩
    have := h.gst p hp (by simp)
    cases hq : m.ptrs (a.ids p) with
    | none => exact absurd hq this
    | some q =>
      obtain ⟨h1, h2⟩ := h.sound _ _ hq
      exact ⟨q, h2.resolve_left fun h' => hl q h' h1, h1, hq⟩
  · intro i hl hg
    exact (Rel.ptrs_none_iff h i).2 fun p hp => hp.elim (hl p) (hg p)
  · intro p hp; exact h.rng p (Finset.mem_union.1 hp)
  · simp only
    rw [h.nD]
    congr 1
    refine Finset.card_bij (fun p _ => a.ids p) ?_ ?_ ?_
    · intro p hp
      rw [Finset.mem_filter] at hp
      rw [Finset.mem_sdiff, Finset.mem_image, Finset.mem_image]
      refine ⟨⟨p, hp.1, rfl⟩, ?_⟩
      rintro ⟨q, hq, e⟩
      have := h.loc q hq
      rw [e, hp.2] at this
      cases this
      exact Finset.disjoint_left.1 h.disj hq hp.1
    · intro p hp q hq e
      rw [Finset.mem_filter] at hp hq
      have := hp.2
      rw [e, hq.2] at this
      exact (Option.some.inj this).symm
    · intro i hi
      rw [Finset.mem_sdiff, Finset.mem_image, Finset.mem_image] at hi
      obtain ⟨⟨p, hp, rfl⟩, hl⟩ := hi
      cases hq : m.ptrs (a.ids p) with
      | none => exact absurd hq (h.gst p hp (by simp))
      | some q =>
        obtain ⟨h1, h2⟩ := h.sound _ _ hq
        refine ⟨q, ?_, h1⟩
        rw [Finset.mem_filter]
        exact ⟨h2.resolve_left fun h' => hl ⟨q, h', h1⟩, by rw [h1]; exact hq⟩

/-- One call. -/
theorem step_rel {pick : Pick P} (hpick : pick.OK) {cap : ℤ} {m : Map P} {a : Abs P}
    (h : Rel m a.ids a.L a.G) (hc : m.cap = cap) {op : Op P} (ho : a.Allowed op) :
    (step pick ⟨m, a.ids⟩ op).2 = (a.step cap op).2 ∧
    (step pick ⟨m, a.ids⟩ op).1.ids = (a.step cap op).1.ids ∧
    (step pick ⟨m, a.ids⟩ op).1.m.cap = cap ∧
    Rel (step pick ⟨m, a.ids⟩ op).1.m (a.step cap op).1.ids (a.step cap op).1.L
      (a.step cap op).1.G := by
  subst hc
  cases op with
  | addLocal p i =>
    obtain ⟨hL, hG⟩ := ho
    have hne : ∀ q, q ∈ a.L ∨ q ∈ a.G → Function.update a.ids p i q = a.ids q := by
      rintro q hq
      rw [Function.update_of_ne]
      rintro rfl
      exact hq.elim hL hG
    have h' := Hole.congr h hne
    obtain ⟨h1, h2⟩ := rel_addLocal h' hL hG
    simp only [Function.update_self] at h1 h2
    simp only [step, Abs.step]
    cases hm : m.addLocal (Function.update a.ids p i) p with
    | none =>
      rw [if_neg]
      · exact ⟨rfl, rfl, rfl, h'⟩
      · rintro ⟨c1, c2, c3⟩
        rcases h2 hm with h2 | ⟨q, hq, e⟩
        · exact h2 ⟨c1, c2⟩
        · rw [hne q hq] at e
          exact c3 q (Finset.mem_union.2 hq) e
    | some m' =>
      obtain ⟨r1, r2, r3, r4⟩ := h1 m' hm
      rw [if_pos]
      · exact ⟨rfl, rfl, r3, r4⟩
      · refine ⟨r1.1, r1.2, fun q hq => ?_⟩
        rw [← hne q (Finset.mem_union.1 hq)]
        exact r2 q (Finset.mem_union.1 hq)
  | removeLocal p =>
    obtain ⟨h1, h2⟩ := rel_removeLocal hpick h (p := p) ho
    simp only [step, Abs.step]
    by_cases hp : p ∈ a.L
    · obtain ⟨m', e, hc, hr⟩ := h1 hp
      rw [e, if_pos hp]
      exact ⟨rfl, rfl, hc, hr⟩
    · rw [h2 hp, if_neg hp]
      exact ⟨rfl, rfl, rfl, h⟩
  | addGhost p i =>
    obtain ⟨hL, hG⟩ := ho
    have hne : ∀ q, q ∈ a.L ∨ q ∈ a.G → Function.update a.ids p i q = a.ids q := by
      rintro q hq
      rw [Function.update_of_ne]
      rintro rfl
      exact hq.elim hL hG
    have h' := Hole.congr h hne
    obtain ⟨h1, h2⟩ := rel_addGhost h' hL hG
    simp only [Function.update_self] at h1 h2
    simp only [step, Abs.step]
    by_cases hr : 0 ≤ i ∧ i < m.cap
    · obtain ⟨m', e, hc, hr'⟩ := h1 hr
      rw [e, if_pos hr]
      exact ⟨rfl, rfl, hc, hr'⟩
    · rw [h2 hr, if_neg hr]
      exact ⟨rfl, rfl, rfl, h'⟩
  | removeGhost p =>
    obtain ⟨h1, h2⟩ := rel_removeGhost hpick h (p := p) ho
    simp only [step, Abs.step]
    by_cases hp : p ∈ a.G
    · obtain ⟨m', e, hc, hr⟩ := h1 hp
      rw [e, if_pos hp]
      exact ⟨rfl, rfl, hc, hr⟩
    · rw [h2 hp, if_neg hp]
      exact ⟨rfl, rfl, rfl, h⟩
  | clearGhosts gs =>
    obtain ⟨m', e, hc, hr, -⟩ := rel_clearGhosts h ho.1 ho.2
    simp only [step, Abs.step]
    rw [e]
    exact ⟨rfl, rfl, hc, hr⟩

theorem run_rel {pick : Pick P} (hpick : pick.OK) {cap : ℤ} (ops : List (Op P)) {m : Map P}
    {a : Abs P} (h : Rel m a.ids a.L a.G) (hc : m.cap = cap) (ho : a.AllowedHist cap ops) :
    (run pick ⟨m, a.ids⟩ ops).ids = (a.run cap ops).ids ∧
    (run pick ⟨m, a.ids⟩ ops).m.cap = cap ∧
    Rel (run pick ⟨m, a.ids⟩ ops).m (a.run cap ops).ids (a.run cap ops).L (a.run cap ops).G := by
  induction ops generalizing m a with
  | nil => exact ⟨rfl, hc, h⟩
  | cons op ops ih =>
    obtain ⟨h1, h2⟩ := ho
    obtain ⟨-, r2, r3, r4⟩ := step_rel hpick h hc h1
    have := ih r4 r3 h2
    rw [← r2] at this
    exact this

/-- **C07.** After every history of calls, by a client that follows the rules of
use and that may catch exceptions and go on, every answer of the map agrees with
the set of registered atoms; and the next call is accepted or refused exactly as
specified. -/
theorem C07_atom_map {pick : Pick P} (hpick : pick.OK) (cap : ℤ) (ids : P → ℤ)
    (ops : List (Op P)) (ho : Abs.AllowedHist cap ⟨∅, ∅, ids⟩ ops) :
    Agrees cap (run pick ⟨alloc cap, ids⟩ ops) (Abs.run cap ⟨∅, ∅, ids⟩ ops) ∧
    ∀ op, (Abs.run cap ⟨∅, ∅, ids⟩ ops).Allowed op →
      (step pick (run pick ⟨alloc cap, ids⟩ ops) op).2
        = ((Abs.run cap ⟨∅, ∅, ids⟩ ops).step cap op).2 := by
  obtain ⟨r2, r3, r4⟩ := run_rel hpick (cap := cap) (a := ⟨∅, ∅, ids⟩) ops
    (rel_alloc cap ids) rfl ho
  have e : run pick ⟨alloc cap, ids⟩ ops
      = ⟨(run pick ⟨alloc cap, ids⟩ ops).m, (Abs.run cap ⟨∅, ∅, ids⟩ ops).ids⟩ := by
    rw [← r2]
  rw [e]
  refine ⟨?_, fun op hop => (step_rel hpick r4 r3 hop).1⟩
  have := agrees_of_rel r4
  rwa [r3] at this

/-- The counts and lookups after `clearGhosts`: only local atoms remain. -/
theorem C07_clear_ghosts {pick : Pick P} (hpick : pick.OK) (cap : ℤ) (ids : P → ℤ)
    (ops : List (Op P)) (gs : List P)
    (ho : Abs.AllowedHist cap ⟨∅, ∅, ids⟩ (ops ++ [.clearGhosts gs])) (i : ℤ) :
    let w := run pick ⟨alloc cap, ids⟩ (ops ++ [.clearGhosts gs])
    let a := Abs.run cap ⟨∅, ∅, ids⟩ ops
    w.m.nGhost = 0 ∧ w.m.nDistinct = 0 ∧
      (w.m.find i = none ↔ ∀ p ∈ a.L, a.ids p ≠ i) := by
  intro w a
  have h := (C07_atom_map hpick cap ids _ ho).1
  have e : Abs.run cap ⟨∅, ∅, ids⟩ (ops ++ [.clearGhosts gs]) = { a with G := ∅ } := by
    simp only [Abs.run, List.foldl_append, List.foldl_cons, List.foldl_nil, Abs.step]
    rfl
  rw [e] at h
  refine ⟨by simpa using h.nGhost, by simpa using h.nDistinct, ?_, ?_⟩
  · intro hn p hp e
    have := h.local_ p hp
    rw [show ({ a with G := ∅ } : Abs P).ids p = i from e] at this
    have hn' : (run pick ⟨alloc cap, ids⟩ (ops ++ [.clearGhosts gs])).m.find i = none := hn
    rw [hn'] at this
    cases this
  · intro hl
    exact h.none_ i hl (by simp)

/-! ## Non-vacuity -/

/-- The multimap lookup that returns the first matching entry. -/
def firstPick : Pick P := fun g k => (g.find? (fun e => e.1 = k)).map Prod.snd

omit [DecidableEq P] in
theorem firstPick_ok : (firstPick (P := P)).OK := by
  intro g k
  unfold firstPick
  cases h : g.find? (fun e => decide (e.1 = k)) with
  | none =>
    simp only [Option.map_none]
    intro p hp
    have := List.find?_eq_none.1 h _ hp
    simp at this
  | some e =>
    simp only [Option.map_some]
    have h1 := List.mem_of_find?_eq_some h
    have h2 := List.find?_some h
    simp only [decide_eq_true_eq] at h2
    rw [← h2]
    exact h1

/-- A history with two ghost images of a local atom: the local atom is removed and
a ghost takes its place; the refused calls leave the map unchanged. -/
def demo : List (Op Nat) :=
  [.addLocal 0 5, .addGhost 1 5, .addGhost 2 5, .addLocal 3 5, .removeLocal 0, .removeLocal 0,
   .addGhost 4 99, .removeGhost 1]

example : Abs.AllowedHist 10 ⟨∅, ∅, fun _ => -1⟩ demo := by
  simp [demo, Abs.AllowedHist, Abs.Allowed, Abs.step]

example : (run firstPick ⟨alloc 10, fun _ => -1⟩ demo).m.find 5 = some 2 := by decide

/-! ## A removal of the wrong kind -/

/-- The documentation of `removeLocal` promises an exception "if the atom is not
present" as a local atom (AtomMap.h:69-77); but a ghost pointer is accepted, and
the number of local atoms becomes negative.  This is why `Allowed` excludes it. -/
theorem C07_removeLocal_accepts_ghost (p : P) (i cap : ℤ) (hi : 0 ≤ i ∧ i < cap)
    (pick : Pick P) (ids : P → ℤ) :
    (step pick (run pick ⟨alloc cap, ids⟩ [.addGhost p i]) (.removeLocal p)).2 = true ∧
    (run pick ⟨alloc cap, ids⟩ [.addGhost p i, .removeLocal p]).m.nLocal = -1 := by
  have hb' : ∀ (f : ℤ → Option P) (g : List (ℤ × P)) (a b : ℤ),
      ¬ (Map.bad ⟨f, g, a, b, cap⟩ i) := by intro f g a b; unfold Map.bad; simp only; omega
  constructor <;>
  simp [run, step, Map.addGhost, alloc, hb', Map.removeLocal, Map.promote]

end Verif.DdAtomMap
