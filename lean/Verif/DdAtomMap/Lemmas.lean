import Verif.DdAtomMap.Model
import Mathlib.Data.Finset.Card
import Mathlib.Data.Finset.Image
import Mathlib.Data.List.Perm.Basic
import Mathlib.Tactic.Linarith
import Mathlib.Tactic.Ring

/-! # Representation invariant of the atom map -/

set_option autoImplicit false

namespace Verif.DdAtomMap

variable {P : Type} [DecidableEq P]

/-- The map represents the local atoms `L` and the ghosts `G`, except that the
slot of id `x` may be empty although ghosts with this id exist. -/
structure Hole (x : Option ℤ) (m : Map P) (ids : P → ℤ) (L G : Finset P) : Prop where
  disj : Disjoint L G
  rng : ∀ p, p ∈ L ∨ p ∈ G → 0 ≤ ids p ∧ ids p < m.cap
  inj : ∀ p ∈ L, ∀ q ∈ L, ids p = ids q → p = q
  sound : ∀ i p, m.ptrs i = some p → ids p = i ∧ (p ∈ L ∨ p ∈ G)
  loc : ∀ p ∈ L, m.ptrs (ids p) = some p
  gst : ∀ p ∈ G, some (ids p) ≠ x → m.ptrs (ids p) ≠ none
  gmem : ∀ k p, (k, p) ∈ m.ghosts ↔ p ∈ G ∧ k = ids p ∧ m.ptrs (ids p) ≠ some p
  gnd : m.ghosts.Nodup
  nL : m.nLocal = L.card
  nD : m.nDistinct = (G.filter (fun p => m.ptrs (ids p) = some p)).card
  hole : ∀ i, x = some i → m.ptrs i = none

/-- The map represents the local atoms `L` and the ghosts `G`. -/
abbrev Rel (m : Map P) (ids : P → ℤ) (L G : Finset P) : Prop := Hole none m ids L G

theorem rel_alloc (cap : ℤ) (ids : P → ℤ) : Rel (alloc cap : Map P) ids ∅ ∅ := by
  constructor <;> simp [alloc]

/-- Only the ids of registered atoms matter. -/
theorem Hole.congr {x : Option ℤ} {m : Map P} {ids ids' : P → ℤ} {L G : Finset P}
    (h : Hole x m ids L G) (he : ∀ p, p ∈ L ∨ p ∈ G → ids' p = ids p) : Hole x m ids' L G := by
  constructor
  · exact h.disj
  · intro p hp; rw [he p hp]; exact h.rng p hp
  · intro p hp q hq; rw [he p (.inl hp), he q (.inl hq)]; exact h.inj p hp q hq
  · intro i p hi
    obtain ⟨h1, h2⟩ := h.sound i p hi
    exact ⟨by rw [he p h2, h1], h2⟩
  · intro p hp; rw [he p (.inl hp)]; exact h.loc p hp
  · intro p hp; rw [he p (.inr hp)]; exact h.gst p hp
  · intro k p
    rw [h.gmem]
    refine and_congr_right fun hp => ?_
    rw [he p (.inr hp)]
  · exact h.gnd
  · exact h.nL
  · rw [h.nD]
    congr 2
    apply Finset.filter_congr
    intro p hp
    rw [he p (.inr hp)]
  · exact h.hole

theorem Hole.length_ghosts {x : Option ℤ} {m : Map P} {ids : P → ℤ} {L G : Finset P}
    (h : Hole x m ids L G) :
    m.ghosts.length = (G.filter (fun p => ¬ m.ptrs (ids p) = some p)).card := by
  have hnd : (m.ghosts.map Prod.snd).Nodup := by
    refine List.Nodup.map_on ?_ h.gnd
    rintro ⟨k, p⟩ h1 ⟨k', p'⟩ h2 e
    simp only at e
    subst e
    rw [h.gmem] at h1 h2
    rw [h1.2.1, h2.2.1]
  rw [← List.length_map (f := Prod.snd), ← List.toFinset_card_of_nodup hnd]
  congr 1
  ext p
  simp only [List.mem_toFinset, List.mem_map, Prod.exists, exists_eq_right, Finset.mem_filter,
    h.gmem]
  constructor
  · rintro ⟨k, h1, _, h2⟩; exact ⟨h1, h2⟩
  · rintro ⟨h1, h2⟩; exact ⟨_, h1, rfl, h2⟩

theorem Hole.nGhost {x : Option ℤ} {m : Map P} {ids : P → ℤ} {L G : Finset P}
    (h : Hole x m ids L G) : m.nGhost = G.card := by
  unfold Map.nGhost
  rw [h.nD, h.length_ghosts]
  exact_mod_cast Finset.card_filter_add_card_filter_not _

/-- Which lookups return a ghost. -/
theorem Rel.ptrs_none_iff {m : Map P} {ids : P → ℤ} {L G : Finset P} (h : Rel m ids L G) (i : ℤ) :
    m.ptrs i = none ↔ ∀ p, p ∈ L ∨ p ∈ G → ids p ≠ i := by
  constructor
  · rintro hn p (hp | hp) rfl
    · rw [h.loc p hp] at hn; cases hn
    · exact h.gst p hp (by simp) hn
  · intro hp
    cases hi : m.ptrs i with
    | none => rfl
    | some q =>
      obtain ⟨h1, h2⟩ := h.sound i q hi
      exact absurd h1 (hp q h2)

theorem Hole.promote {pick : Pick P} (hpick : pick.OK) {m : Map P} {ids : P → ℤ}
    {L G : Finset P} {i : ℤ} (h : Hole (some i) m ids L G) :
    Rel (m.promote pick i) ids L G ∧ (m.promote pick i).cap = m.cap := by
  have hole := h.hole i rfl
  unfold Map.promote
  by_cases he : m.ghosts = []
  · rw [if_pos he]
    refine ⟨⟨h.disj, h.rng, h.inj, h.sound, h.loc, ?_, h.gmem, h.gnd, h.nL, h.nD, by simp⟩, rfl⟩
    intro p hp _ hn
    by_cases hi : ids p = i
    · have := (h.gmem (ids p) p).2 ⟨hp, rfl, by rw [hi, hole]; simp⟩
      rw [he] at this; cases this
    · exact h.gst p hp (by simpa using hi) hn
  · rw [if_neg he]
    have hp := hpick m.ghosts i
    cases hq : pick m.ghosts i with
    | none =>
      rw [hq] at hp
      refine ⟨⟨h.disj, h.rng, h.inj, h.sound, h.loc, ?_, h.gmem, h.gnd, h.nL, h.nD, by simp⟩, rfl⟩
      intro p hpG _ hn
      by_cases hi : ids p = i
      · exact hp p ((h.gmem i p).2 ⟨hpG, hi.symm, by rw [hi, hole]; simp⟩)
      · exact h.gst p hpG (by simpa using hi) hn
    | some q =>
      rw [hq] at hp
      simp only at hp
      obtain ⟨hqG, hqi, -⟩ := (h.gmem i q).1 hp
      refine ⟨⟨h.disj, h.rng, h.inj, ?_, ?_, ?_, ?_, h.gnd.erase _, h.nL, ?_, by simp⟩, rfl⟩
      · intro j p hj
        by_cases hji : j = i
        · subst hji
          simp only [Function.update_self, Option.some.injEq] at hj
          subst hj
          exact ⟨hqi.symm, .inr hqG⟩
        · simp only [Function.update_of_ne hji] at hj
          exact h.sound j p hj
      · intro p hpL
        have hpi : ids p ≠ i := by
          intro e; have := h.loc p hpL; rw [e, hole] at this; cases this
        simp only [Function.update_of_ne hpi]
        exact h.loc p hpL
      · intro p hpG _ hn
        by_cases hpi : ids p = i
        · simp only [hpi, Function.update_self] at hn; cases hn
        · simp only [Function.update_of_ne hpi] at hn
          exact h.gst p hpG (by simpa using hpi) hn
      · intro k p
        simp only
        rw [h.gnd.mem_erase_iff, h.gmem]
        constructor
        · rintro ⟨hne, hpG, hk, hp'⟩
          refine ⟨hpG, hk, ?_⟩
          by_cases hpi : ids p = i
          · rw [hpi, Function.update_self]
            intro e
            apply hne
            rw [hk, hpi]
            simp only [Option.some.injEq] at e
            rw [e]
          · rw [Function.update_of_ne hpi]; exact hp'
        · rintro ⟨hpG, hk, hp'⟩
          by_cases hpi : ids p = i
          · rw [hpi, Function.update_self] at hp'
            refine ⟨?_, hpG, hk, ?_⟩
            · rintro e
              simp only [Prod.mk.injEq] at e
              exact hp' (by rw [e.2])
            · rw [hpi, hole]; simp
          · rw [Function.update_of_ne hpi] at hp'
            refine ⟨?_, hpG, hk, hp'⟩
            rintro e
            simp only [Prod.mk.injEq] at e
            exact hpi (by rw [← hk, e.1])
      · simp only
        rw [h.nD]
        have : G.filter (fun p => Function.update m.ptrs i (some q) (ids p) = some p)
            = insert q (G.filter (fun p => m.ptrs (ids p) = some p)) := by
          ext p
          simp only [Finset.mem_filter, Finset.mem_insert]
          by_cases hpi : ids p = i
          · rw [hpi, Function.update_self, hole]
            simp only [Option.some.injEq, reduceCtorEq, and_false, or_false]
            constructor
            · rintro ⟨_, e⟩; exact e.symm
            · rintro rfl; exact ⟨hqG, rfl⟩
          · rw [Function.update_of_ne hpi]
            constructor
            · intro h'; exact .inr h'
            · rintro (rfl | h')
              · exact absurd hqi.symm hpi
              · exact h'
        rw [this, Finset.card_insert_of_notMem]
        · push_cast; ring
        · rw [Finset.mem_filter, ← hqi, hole]
          simp

theorem rel_addLocal {m : Map P} {ids : P → ℤ} {L G : Finset P} (h : Rel m ids L G) {p : P}
    (hL : p ∉ L) (hG : p ∉ G) :
    (∀ m', m.addLocal ids p = some m' → (0 ≤ ids p ∧ ids p < m.cap) ∧
      (∀ q, q ∈ L ∨ q ∈ G → ids q ≠ ids p) ∧ m'.cap = m.cap ∧ Rel m' ids (insert p L) G) ∧
    (m.addLocal ids p = none → ¬ (0 ≤ ids p ∧ ids p < m.cap) ∨
      ∃ q, (q ∈ L ∨ q ∈ G) ∧ ids q = ids p) := by
  unfold Map.addLocal
  by_cases hb : m.bad (ids p)
  · rw [if_pos hb]
    refine ⟨fun _ e => (by cases e), fun _ => .inl ?_⟩
    unfold Map.bad at hb; omega
  · rw [if_neg hb]
    have hrng : 0 ≤ ids p ∧ ids p < m.cap := by unfold Map.bad at hb; omega
    cases hptr : m.ptrs (ids p) with
    | some q =>
      refine ⟨fun _ e => (by cases e), fun _ => .inr ?_⟩
      obtain ⟨h1, h2⟩ := h.sound _ _ hptr
      exact ⟨q, h2, h1⟩
    | none =>
      refine ⟨?_, fun e => (by cases e)⟩
      intro m' e
      simp only [Option.some.injEq] at e
      subst e
      have hfree := (Rel.ptrs_none_iff h (ids p)).1 hptr
      refine ⟨hrng, hfree, rfl, ⟨?_, ?_, ?_, ?_, ?_, ?_, ?_, h.gnd, ?_, ?_, by simp⟩⟩
      · rw [Finset.disjoint_insert_left]; exact ⟨hG, h.disj⟩
      · rintro q (hq | hq)
        · rcases Finset.mem_insert.1 hq with rfl | hq
          · exact hrng
          · exact h.rng q (.inl hq)
        · exact h.rng q (.inr hq)
      · intro q hq r hr e
        rcases Finset.mem_insert.1 hq with hq1 | hq1 <;>
          rcases Finset.mem_insert.1 hr with hr1 | hr1
        · rw [hq1, hr1]
        · exact absurd (by rw [← e, hq1]) (hfree r (.inl hr1))
        · exact absurd (by rw [e, hr1]) (hfree q (.inl hq1))
        · exact h.inj q hq1 r hr1 e
      · intro i q hi
        by_cases hip : i = ids p
        · subst hip
          simp only [Function.update_self, Option.some.injEq] at hi
          subst hi
          exact ⟨rfl, .inl (Finset.mem_insert_self _ _)⟩
        · simp only [Function.update_of_ne hip] at hi
          obtain ⟨h1, h2⟩ := h.sound i q hi
          exact ⟨h1, h2.imp (Finset.mem_insert_of_mem) id⟩
      · intro q hq
        rcases Finset.mem_insert.1 hq with rfl | hq
        · simp
        · simp only [Function.update_of_ne (hfree q (.inl hq))]
          exact h.loc q hq
      · intro q hq _
        simp only [Function.update_of_ne (hfree q (.inr hq))]
        exact h.gst q hq (by simp)
      · intro k q
        simp only
        rw [h.gmem]
        refine and_congr_right fun hq => ?_
        rw [Function.update_of_ne (hfree q (.inr hq))]
      · simp only
        rw [h.nL, Finset.card_insert_of_notMem hL]
        push_cast; ring
      · simp only
        rw [h.nD]
        congr 2
        apply Finset.filter_congr
        intro q hq
        rw [Function.update_of_ne (hfree q (.inr hq))]

theorem rel_removeLocal {pick : Pick P} (hpick : pick.OK) {m : Map P} {ids : P → ℤ}
    {L G : Finset P} (h : Rel m ids L G) {p : P} (hG : p ∉ G) :
    (p ∈ L → ∃ m', m.removeLocal pick ids p = some m' ∧ m'.cap = m.cap ∧
      Rel m' ids (L.erase p) G) ∧
    (p ∉ L → m.removeLocal pick ids p = none) := by
  unfold Map.removeLocal
  constructor
  · intro hL
    have hr := h.rng p (.inl hL)
    rw [if_neg (by unfold Map.bad; omega), if_pos (h.loc p hL)]
    have hole : Hole (some (ids p)) { m with ptrs := Function.update m.ptrs (ids p) none,
                                             nLocal := m.nLocal - 1 } ids (L.erase p) G := by
      refine ⟨?_, ?_, ?_, ?_, ?_, ?_, ?_, h.gnd, ?_, ?_, ?_⟩
      · exact Finset.disjoint_of_subset_left (Finset.erase_subset _ _) h.disj
      · rintro q (hq | hq)
        · exact h.rng q (.inl (Finset.mem_of_mem_erase hq))
        · exact h.rng q (.inr hq)
      · intro q hq r hr
        exact h.inj q (Finset.mem_of_mem_erase hq) r (Finset.mem_of_mem_erase hr)
      · intro i q hi
        by_cases hip : i = ids p
        · subst hip; simp at hi
        · simp only [Function.update_of_ne hip] at hi
          obtain ⟨h1, h2⟩ := h.sound i q hi
          refine ⟨h1, h2.imp (fun hq => Finset.mem_erase.2 ⟨?_, hq⟩) id⟩
          rintro rfl; exact hip h1.symm
      · intro q hq
        have hq' := Finset.mem_erase.1 hq
        have hne : ids q ≠ ids p := fun e => hq'.1 (h.inj q hq'.2 p hL e)
        simp only [Function.update_of_ne hne]
        exact h.loc q hq'.2
      · intro q hq hne
        have hne : ids q ≠ ids p := fun e => hne (by rw [e])
        simp only [Function.update_of_ne hne]
        exact h.gst q hq (by simp)
      · intro k q
        simp only
        rw [h.gmem]
        refine and_congr_right fun hq => and_congr_right fun _ => ?_
        by_cases hqp : ids q = ids p
        · rw [hqp, Function.update_self, h.loc p hL]
          simp only [ne_eq, Option.some.injEq, reduceCtorEq, not_false_eq_true, iff_true]
          rintro rfl; exact hG hq
        · rw [Function.update_of_ne hqp]
      · simp only
        rw [h.nL, Finset.card_erase_of_mem hL]
        have := Finset.card_pos.2 ⟨p, hL⟩
        omega
      · simp only
        rw [h.nD]
        congr 2
        apply Finset.filter_congr
        intro q hq
        by_cases hqp : ids q = ids p
        · rw [hqp, Function.update_self, h.loc p hL]
          simp only [Option.some.injEq, reduceCtorEq, iff_false]
          rintro rfl; exact hG hq
        · rw [Function.update_of_ne hqp]
      · intro i hi
        simp only [Option.some.injEq] at hi
        subst hi; simp
    obtain ⟨h1, h2⟩ := hole.promote hpick
    exact ⟨_, rfl, h2, h1⟩
  · intro hL
    split
    · rfl
    · rw [if_neg]
      intro e
      rcases (h.sound _ _ e).2 with h' | h'
      · exact hL h'
      · exact hG h'

theorem rel_addGhost {m : Map P} {ids : P → ℤ} {L G : Finset P} (h : Rel m ids L G) {p : P}
    (hL : p ∉ L) (hG : p ∉ G) :
    (0 ≤ ids p ∧ ids p < m.cap → ∃ m', m.addGhost ids p = some m' ∧ m'.cap = m.cap ∧
      Rel m' ids L (insert p G)) ∧
    (¬ (0 ≤ ids p ∧ ids p < m.cap) → m.addGhost ids p = none) := by
  unfold Map.addGhost
  constructor
  swap
  · intro hr
    rw [if_pos (by unfold Map.bad; omega)]
  intro hrng
  rw [if_neg (by unfold Map.bad; omega)]
  cases hptr : m.ptrs (ids p) with
  | none =>
    refine ⟨{ m with ptrs := Function.update m.ptrs (ids p) (some p)
                     nDistinct := m.nDistinct + 1 }, rfl, rfl, ?_⟩
    have hfree := (Rel.ptrs_none_iff h (ids p)).1 hptr
    refine ⟨?_, ?_, h.inj, ?_, ?_, ?_, ?_, h.gnd, h.nL, ?_, by simp⟩
    · rw [Finset.disjoint_insert_right]; exact ⟨hL, h.disj⟩
    · rintro q (hq | hq)
      · exact h.rng q (.inl hq)
      · rcases Finset.mem_insert.1 hq with rfl | hq
        · exact hrng
        · exact h.rng q (.inr hq)
    · intro i q hi
      by_cases hip : i = ids p
      · subst hip
        simp only [Function.update_self, Option.some.injEq] at hi
        subst hi
        exact ⟨rfl, .inr (Finset.mem_insert_self _ _)⟩
      · simp only [Function.update_of_ne hip] at hi
        obtain ⟨h1, h2⟩ := h.sound i q hi
        exact ⟨h1, h2.imp id (Finset.mem_insert_of_mem)⟩
    · intro q hq
      simp only [Function.update_of_ne (hfree q (.inl hq))]
      exact h.loc q hq
    · intro q hq _
      rcases Finset.mem_insert.1 hq with rfl | hq
      · simp
      · simp only [Function.update_of_ne (hfree q (.inr hq))]
        exact h.gst q hq (by simp)
    · intro k q
      simp only
      rw [h.gmem, Finset.mem_insert]
      constructor
      · rintro ⟨h1, h2, h3⟩
        refine ⟨.inr h1, h2, ?_⟩
        rw [Function.update_of_ne (hfree q (.inr h1))]; exact h3
      · rintro ⟨rfl | h1, h2, h3⟩
        · simp at h3
        · rw [Function.update_of_ne (hfree q (.inr h1))] at h3
          exact ⟨h1, h2, h3⟩
    · simp only
      rw [h.nD, Finset.filter_insert, if_pos (by simp), Finset.card_insert_of_notMem]
      · push_cast
        congr 3
        apply Finset.filter_congr
        intro q hq
        rw [Function.update_of_ne (hfree q (.inr hq))]
      · intro hm
        exact hG (Finset.mem_filter.1 hm).1
  | some r =>
    refine ⟨{ m with ghosts := (ids p, p) :: m.ghosts }, rfl, rfl, ?_⟩
    have hrp : r ≠ p := by
      rintro rfl
      rcases (h.sound _ _ hptr).2 with h' | h'
      · exact hL h'
      · exact hG h'
    refine ⟨?_, ?_, h.inj, ?_, h.loc, ?_, ?_, ?_, h.nL, ?_, by simp⟩
    · rw [Finset.disjoint_insert_right]; exact ⟨hL, h.disj⟩
    · rintro q (hq | hq)
      · exact h.rng q (.inl hq)
      · rcases Finset.mem_insert.1 hq with rfl | hq
        · exact hrng
        · exact h.rng q (.inr hq)
    · intro i q hi
      obtain ⟨h1, h2⟩ := h.sound i q hi
      exact ⟨h1, h2.imp id (Finset.mem_insert_of_mem)⟩
    · intro q hq _
      rcases Finset.mem_insert.1 hq with rfl | hq
      · simp only [hptr]; simp
      · exact h.gst q hq (by simp)
    · intro k q
      simp only [List.mem_cons, Prod.mk.injEq, h.gmem, Finset.mem_insert]
      constructor
      · rintro (⟨rfl, rfl⟩ | ⟨h1, h2, h3⟩)
        · refine ⟨.inl rfl, rfl, ?_⟩
          rw [hptr]; simpa using hrp
        · exact ⟨.inr h1, h2, h3⟩
      · rintro ⟨rfl | h1, h2, h3⟩
        · exact .inl ⟨h2, rfl⟩
        · exact .inr ⟨h1, h2, h3⟩
    · simp only
      rw [List.nodup_cons]
      refine ⟨?_, h.gnd⟩
      intro hm
      exact hG ((h.gmem _ _).1 hm).1
    · simp only
      rw [h.nD, Finset.filter_insert, if_neg]
      rw [hptr]; simpa using hrp

theorem rel_removeGhost {pick : Pick P} (hpick : pick.OK) {m : Map P} {ids : P → ℤ}
    {L G : Finset P} (h : Rel m ids L G) {p : P} (hL : p ∉ L) :
    (p ∈ G → ∃ m', m.removeGhost pick ids p = some m' ∧ m'.cap = m.cap ∧
      Rel m' ids L (G.erase p)) ∧
    (p ∉ G → m.removeGhost pick ids p = none) := by
  unfold Map.removeGhost
  constructor
  swap
  · intro hG
    split
    · rfl
    · rw [if_neg, if_neg (c := (ids p, p) ∈ m.ghosts)]
      · simp
      · intro hm; exact hG ((h.gmem _ _).1 hm).1
      · intro e
        rcases (h.sound _ _ e).2 with h' | h'
        · exact hL h'
        · exact hG h'
  intro hG
  have hr := h.rng p (.inr hG)
  rw [if_neg (by unfold Map.bad; omega)]
  by_cases hptr : m.ptrs (ids p) = some p
  · rw [if_pos hptr]
    have hole : Hole (some (ids p)) { m with ptrs := Function.update m.ptrs (ids p) none,
                                             nDistinct := m.nDistinct - 1 } ids L (G.erase p) := by
      have hnl : ∀ q ∈ L, ids q ≠ ids p := by
        intro q hq e
        have := h.loc q hq
        rw [e, hptr] at this
        cases this
        exact hL hq
      refine ⟨?_, ?_, h.inj, ?_, ?_, ?_, ?_, h.gnd, h.nL, ?_, ?_⟩
      · exact Finset.disjoint_of_subset_right (Finset.erase_subset _ _) h.disj
      · rintro q (hq | hq)
        · exact h.rng q (.inl hq)
        · exact h.rng q (.inr (Finset.mem_of_mem_erase hq))
      · intro i q hi
        by_cases hip : i = ids p
        · subst hip; simp at hi
        · simp only [Function.update_of_ne hip] at hi
          obtain ⟨h1, h2⟩ := h.sound i q hi
          refine ⟨h1, h2.imp id (fun hq => Finset.mem_erase.2 ⟨?_, hq⟩)⟩
          rintro rfl; exact hip h1.symm
      · intro q hq
        simp only [Function.update_of_ne (hnl q hq)]
        exact h.loc q hq
      · intro q hq hne
        have hne : ids q ≠ ids p := fun e => hne (by rw [e])
        simp only [Function.update_of_ne hne]
        exact h.gst q (Finset.mem_of_mem_erase hq) (by simp)
      · intro k q
        simp only
        rw [h.gmem, Finset.mem_erase]
        constructor
        · rintro ⟨h1, h2, h3⟩
          refine ⟨⟨?_, h1⟩, h2, ?_⟩
          · rintro rfl; exact h3 hptr
          · by_cases hqp : ids q = ids p
            · rw [hqp]; simp
            · rw [Function.update_of_ne hqp]; exact h3
        · rintro ⟨⟨h0, h1⟩, h2, h3⟩
          refine ⟨h1, h2, ?_⟩
          by_cases hqp : ids q = ids p
          · rw [hqp, hptr]
            simp only [ne_eq, Option.some.injEq]
            exact fun e => h0 e.symm
          · rw [Function.update_of_ne hqp] at h3; exact h3
      · simp only
        rw [h.nD]
        have : G.filter (fun q => m.ptrs (ids q) = some q) = insert p ((G.erase p).filter
            (fun q => Function.update m.ptrs (ids p) none (ids q) = some q)) := by
          ext q
          simp only [Finset.mem_filter, Finset.mem_insert, Finset.mem_erase]
          by_cases hqp : ids q = ids p
          · rw [hqp, Function.update_self, hptr]
            simp only [Option.some.injEq, reduceCtorEq, and_false, or_false]
            constructor
            · rintro ⟨_, e⟩; exact e.symm
            · rintro rfl; exact ⟨hG, rfl⟩
          · rw [Function.update_of_ne hqp]
            have hne : q ≠ p := by rintro rfl; exact hqp rfl
            simp [hne]
        rw [this, Finset.card_insert_of_notMem]
        · push_cast; ring
        · simp
      · intro i hi
        simp only [Option.some.injEq] at hi
        subst hi; simp
    obtain ⟨h1, h2⟩ := hole.promote hpick
    exact ⟨_, rfl, h2, h1⟩
  · have hm : (ids p, p) ∈ m.ghosts := (h.gmem _ _).2 ⟨hG, rfl, hptr⟩
    rw [if_neg hptr, if_pos (h.gst p hG (by simp)), if_pos hm]
    refine ⟨{ m with ghosts := m.ghosts.erase (ids p, p) }, rfl, rfl, ?_⟩
    refine ⟨?_, ?_, h.inj, ?_, h.loc, ?_, ?_, h.gnd.erase _, h.nL, ?_, by simp⟩
    · exact Finset.disjoint_of_subset_right (Finset.erase_subset _ _) h.disj
    · rintro q (hq | hq)
      · exact h.rng q (.inl hq)
      · exact h.rng q (.inr (Finset.mem_of_mem_erase hq))
    · intro i q hi
      obtain ⟨h1, h2⟩ := h.sound i q hi
      refine ⟨h1, h2.imp id (fun hq => Finset.mem_erase.2 ⟨?_, hq⟩)⟩
      rintro rfl; exact hptr (by rw [h1]; exact hi)
    · intro q hq _
      exact h.gst q (Finset.mem_of_mem_erase hq) (by simp)
    · intro k q
      simp only
      rw [h.gnd.mem_erase_iff, h.gmem, Finset.mem_erase]
      constructor
      · rintro ⟨h0, h1, h2, h3⟩
        refine ⟨⟨?_, h1⟩, h2, h3⟩
        rintro rfl; exact h0 (by rw [h2])
      · rintro ⟨⟨h0, h1⟩, h2, h3⟩
        refine ⟨?_, h1, h2, h3⟩
        intro e
        simp only [Prod.mk.injEq] at e
        exact h0 e.2
    · simp only
      rw [h.nD]
      congr 2
      ext q
      simp only [Finset.mem_filter, Finset.mem_erase]
      constructor
      · rintro ⟨h1, h2⟩
        refine ⟨⟨?_, h1⟩, h2⟩
        rintro rfl; exact hptr h2
      · rintro ⟨⟨_, h1⟩, h2⟩; exact ⟨h1, h2⟩

/-- State of the loop of `clearGhosts` after processing the ghosts in `D`. -/
theorem clear_foldl {ids : P → ℤ} {L G : Finset P} {m0 : Map P} (h : Rel m0 ids L G)
    (gs : List P) (hgs : ∀ p ∈ gs, p ∈ G) (m : Map P)
    (hm : ∀ i, m.ptrs i = m0.ptrs i ∨ (m.ptrs i = none ∧ ∃ p ∈ G, m0.ptrs i = some p))
    (hn : m.nDistinct = (G.filter (fun p => m.ptrs (ids p) = some p)).card) :
    ∀ r, r = gs.foldl (Map.clearOne ids) m →
    (∀ i, r.ptrs i = m0.ptrs i ∨ (r.ptrs i = none ∧ ∃ p ∈ G, m0.ptrs i = some p)) ∧
    r.nDistinct = (G.filter (fun p => r.ptrs (ids p) = some p)).card ∧
    (∀ i p, r.ptrs i = some p → m.ptrs i = some p) ∧
    (∀ p ∈ gs, r.ptrs (ids p) ≠ some p) ∧
    r.cap = m.cap ∧ r.nLocal = m.nLocal ∧ r.ghosts = m.ghosts := by
  induction gs generalizing m with
  | nil => rintro r rfl; exact ⟨hm, hn, fun _ _ h => h, by simp, rfl, rfl, rfl⟩
  | cons p gs ih =>
    intro r hr
    simp only [List.foldl_cons] at hr
    have hpG := hgs p (by simp)
    by_cases hp : m.ptrs (ids p) = some p
    · have hc : Map.clearOne ids m p = { m with ptrs := Function.update m.ptrs (ids p) none
                                                nDistinct := m.nDistinct - 1 } := by
        unfold Map.clearOne; rw [if_pos hp]
      rw [hc] at hr
      have hm0 : m0.ptrs (ids p) = some p := by
        rcases hm (ids p) with e | ⟨e, _⟩
        · rw [← e, hp]
        · rw [e] at hp; cases hp
      have k1 : ∀ i, Function.update m.ptrs (ids p) none i = m0.ptrs i ∨
          (Function.update m.ptrs (ids p) none i = none ∧ ∃ p ∈ G, m0.ptrs i = some p) := by
        intro i
        by_cases hip : i = ids p
        · subst hip
          right
          exact ⟨by simp, p, hpG, hm0⟩
        · simp only [Function.update_of_ne hip]; exact hm i
      have k2 : m.nDistinct - 1 = (G.filter (fun q =>
          Function.update m.ptrs (ids p) none (ids q) = some q)).card := by
        rw [hn]
        have : G.filter (fun q => m.ptrs (ids q) = some q) = insert p (G.filter
            (fun q => Function.update m.ptrs (ids p) none (ids q) = some q)) := by
          ext q
          simp only [Finset.mem_filter, Finset.mem_insert]
          by_cases hqp : ids q = ids p
          · rw [hqp, Function.update_self, hp]
            simp only [Option.some.injEq, reduceCtorEq, and_false, or_false]
            constructor
            · rintro ⟨_, e⟩; exact e.symm
            · rintro rfl; exact ⟨hpG, rfl⟩
          · rw [Function.update_of_ne hqp]
            have hne : q ≠ p := by rintro rfl; exact hqp rfl
            simp [hne]
        rw [this, Finset.card_insert_of_notMem]
        · push_cast; ring
        · simp
      obtain ⟨r1, r2, r3, r4, r5, r6, r7⟩ := ih (fun q hq => hgs q (by simp [hq]))
        { m with ptrs := Function.update m.ptrs (ids p) none, nDistinct := m.nDistinct - 1 }
        k1 k2 r hr
      refine ⟨r1, r2, ?_, ?_, r5, r6, r7⟩
      · intro i q hi
        have := r3 i q hi
        by_cases hip : i = ids p
        · subst hip; simp at this
        · simpa only [Function.update_of_ne hip] using this
      · intro q hq
        rcases List.mem_cons.1 hq with rfl | hq
        · intro e
          have := r3 _ _ e
          simp at this
        · exact r4 q hq
    · have hc : Map.clearOne ids m p = m := by unfold Map.clearOne; rw [if_neg hp]
      rw [hc] at hr
      obtain ⟨r1, r2, r3, r4, r5, r6, r7⟩ := ih (fun q hq => hgs q (by simp [hq])) m hm hn r hr
      refine ⟨r1, r2, r3, ?_, r5, r6, r7⟩
      intro q hq
      rcases List.mem_cons.1 hq with rfl | hq
      · intro e; exact hp (r3 _ _ e)
      · exact r4 q hq

theorem rel_clearGhosts {m : Map P} {ids : P → ℤ} {L G : Finset P} (h : Rel m ids L G)
    {gs : List P} (hnd : gs.Nodup) (hgs : gs.toFinset = G) :
    ∃ m', m.clearGhosts ids gs = some m' ∧ m'.cap = m.cap ∧ Rel m' ids L ∅ ∧
      m'.ghosts = [] ∧ m'.nDistinct = 0 := by
  have hlen : (gs.length : ℤ) = m.nGhost := by
    rw [h.nGhost, ← hgs, List.toFinset_card_of_nodup hnd]
  unfold Map.clearGhosts
  rw [if_neg (by simpa using hlen)]
  have hmem : ∀ p, p ∈ gs ↔ p ∈ G := fun p => by rw [← hgs, List.mem_toFinset]
  obtain ⟨r1, r2, r3, r4, r5, r6, r7⟩ := clear_foldl h gs (fun p hp => (hmem p).1 hp)
    { m with ghosts := [] } (fun i => .inl rfl) h.nD _ rfl
  have hz : G.filter (fun p => (gs.foldl (Map.clearOne ids) { m with ghosts := [] }).ptrs (ids p)
      = some p) = ∅ := by
    rw [Finset.filter_eq_empty_iff]
    intro p hp
    exact r4 p ((hmem p).2 hp)
  have hnd0 : (gs.foldl (Map.clearOne ids) { m with ghosts := [] }).nDistinct = 0 := by
    rw [r2, hz]; simp
  refine ⟨_, rfl, r5, ⟨by simp, ?_, h.inj, ?_, ?_, by simp, ?_, ?_, ?_, ?_, by simp⟩, r7, hnd0⟩
  · rintro p (hp | hp)
    · rw [r5]; exact h.rng p (.inl hp)
    · simp at hp
  · intro i p hi
    have h0 : m.ptrs i = some p := r3 i p hi
    obtain ⟨h1, h2⟩ := h.sound i p h0
    refine ⟨h1, .inl (h2.resolve_right fun hG => ?_)⟩
    exact r4 p ((hmem p).2 hG) (by rw [h1]; exact hi)
  · intro p hp
    rcases r1 (ids p) with e | ⟨_, q, hq, e⟩
    · rw [e]; exact h.loc p hp
    · rw [h.loc p hp] at e
      cases e
      exact absurd hq (Finset.disjoint_left.1 h.disj hp)
  · intro k p; rw [r7]; simp
  · rw [r7]; simp
  · rw [r6]; exact h.nL
  · rw [hnd0]; simp

/-- The number of occupied positions of the pointer array. -/
theorem Rel.used {m : Map P} {ids : P → ℤ} {L G : Finset P} (h : Rel m ids L G) :
    (((List.range m.cap.toNat).filter (fun i : Nat => (m.ptrs i).isSome)).length : ℤ)
      = m.nLocal + m.nDistinct := by
  have hnd : ((List.range m.cap.toNat).filter (fun i : Nat => (m.ptrs i).isSome)).Nodup :=
    List.nodup_range.filter _
  rw [← List.toFinset_card_of_nodup hnd, h.nL, h.nD, ← Nat.cast_add, ← Finset.card_union_of_disjoint]
  · congr 1
    symm
    refine Finset.card_bij (fun p _ => (ids p).toNat) ?_ ?_ ?_
    · intro p hp
      have hp' : (p ∈ L ∨ p ∈ G) ∧ m.ptrs (ids p) = some p := by
        rcases Finset.mem_union.1 hp with hp | hp
        · exact ⟨.inl hp, h.loc p hp⟩
        · exact ⟨.inr (Finset.mem_filter.1 hp).1, (Finset.mem_filter.1 hp).2⟩
      have hr := h.rng p hp'.1
      simp only [List.mem_toFinset, List.mem_filter, List.mem_range]
      refine ⟨by omega, ?_⟩
      rw [show (((ids p).toNat : ℕ) : ℤ) = ids p by omega, hp'.2]
      rfl
    · intro p hp q hq e
      have key : ∀ p, p ∈ L ∪ G.filter (fun p => m.ptrs (ids p) = some p) →
          (p ∈ L ∨ p ∈ G) ∧ m.ptrs (ids p) = some p := by
        intro p hp
        rcases Finset.mem_union.1 hp with hp | hp
        · exact ⟨.inl hp, h.loc p hp⟩
        · exact ⟨.inr (Finset.mem_filter.1 hp).1, (Finset.mem_filter.1 hp).2⟩
      have h1 := key p hp
      have h2 := key q hq
      have hr1 := h.rng p h1.1
      have hr2 := h.rng q h2.1
      have e' : ids p = ids q := by
        omega
      have h3 := h1.2
      rw [e', h2.2] at h3
      exact (Option.some.inj h3).symm
    · intro i hi
      simp only [List.mem_toFinset, List.mem_filter, List.mem_range] at hi
      obtain ⟨p, hp⟩ := Option.isSome_iff_exists.1 hi.2
      obtain ⟨h1, h2⟩ := h.sound _ _ hp
      refine ⟨p, ?_, by omega⟩
      rw [Finset.mem_union, Finset.mem_filter]
      refine h2.imp id fun h2 => ⟨h2, by rw [h1]; exact hp⟩
  · rw [Finset.disjoint_left]
    intro p hp hq
    exact Finset.disjoint_left.1 h.disj hp (Finset.mem_filter.1 hq).1

theorem Rel.isValid {m : Map P} {ids : P → ℤ} {L G : Finset P} (h : Rel m ids L G) :
    m.isValid ids := by
  refine ⟨fun i p _ _ hi => (h.sound i p hi).1, Rel.used h, ?_⟩
  rintro ⟨k, p⟩ hk
  obtain ⟨h1, h2, h3⟩ := (h.gmem k p).1 hk
  exact ⟨h2, by simp only; rw [h2]; exact h.gst p h1 (by simp)⟩

end Verif.DdAtomMap
