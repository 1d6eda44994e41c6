import Verif.McCell.Model
import Mathlib.Data.Finset.Card
import Mathlib.Data.List.Nodup
import Mathlib.Data.Finset.Insert
import Mathlib.Data.Finset.Dedup

/-! # Helper lemmas for the Monte Carlo cell -/

namespace Verif.McCell

/-- Structural invariant of a cell (the conditions listed in the implementation
notes of Cell.h:114-130, plus "the first empty slot is empty"). -/
structure Inv (cap : Nat) (c : Cell) : Prop where
  clear_le : c.firstClear ≤ cap
  empty_le : c.firstEmpty ≤ cap
  below : ∀ j, j < c.firstEmpty → c.atoms j ≠ none
  above : ∀ j, c.firstClear ≤ j → c.atoms j = none
  last : 0 < c.firstClear → c.atoms (c.firstClear - 1) ≠ none
  hole : c.firstEmpty < cap → c.atoms c.firstEmpty = none
  count : c.nAtom = (((List.range cap).filterMap c.atoms).length : Int)

theorem Inv.empty_le_clear {cap : Nat} {c : Cell} (h : Inv cap c) :
    c.firstEmpty ≤ c.firstClear := by
  by_contra hlt
  exact h.below _ (by omega) (h.above c.firstClear le_rfl)

theorem inv_clear (cap : Nat) : Inv cap Cell.clear := by
  constructor <;> simp [Cell.clear]

/-! ### Counting occupied slots -/

theorem count_update_some {cap p a : Nat} {f : Nat → Option Nat} (hp : p < cap)
    (hf : f p = none) :
    ((List.range cap).filterMap (Function.update f p (some a))).length
      = ((List.range cap).filterMap f).length + 1 := by
  induction cap with
  | zero => omega
  | succ n ih =>
    rw [List.range_succ, List.filterMap_append, List.filterMap_append, List.length_append,
      List.length_append]
    rcases Nat.lt_or_ge p n with h | h
    · rw [ih h]
      have hne : n ≠ p := by omega
      simp [List.filterMap, Function.update_of_ne hne]
      omega
    · have hpn : p = n := by omega
      subst hpn
      have : (List.range p).filterMap (Function.update f p (some a))
          = (List.range p).filterMap f := by
        apply List.filterMap_congr
        intro x hx
        have := List.mem_range.1 hx
        rw [Function.update_of_ne (by omega)]
      rw [this]
      simp [List.filterMap, hf]

theorem count_update_none {cap p a : Nat} {f : Nat → Option Nat} (hp : p < cap)
    (hf : f p = some a) :
    ((List.range cap).filterMap (Function.update f p none)).length + 1
      = ((List.range cap).filterMap f).length := by
  have h := count_update_some (a := a) (f := Function.update f p none) hp (by simp)
  simp only [Function.update_idem] at h
  rw [← hf, Function.update_eq_self] at h
  exact h.symm

theorem count_lt_of_none {cap p : Nat} {f : Nat → Option Nat} (hp : p < cap)
    (hf : f p = none) : ((List.range cap).filterMap f).length < cap := by
  have h := count_update_some (a := 0) hp hf
  have h2 := List.length_filterMap_le (Function.update f p (some 0)) (List.range cap)
  rw [List.length_range] at h2
  omega

theorem count_eq_of_all {cap : Nat} {f : Nat → Option Nat} (h : ∀ j, j < cap → f j ≠ none) :
    ((List.range cap).filterMap f).length = cap := by
  induction cap with
  | zero => simp
  | succ n ih =>
    rw [List.range_succ, List.filterMap_append, List.length_append,
      ih (fun j hj => h j (by omega))]
    obtain ⟨v, hv⟩ := Option.ne_none_iff_exists'.1 (h n (by omega))
    simp [List.filterMap, hv]

/-! ### The scan loops -/

theorem scanDown_le (f : Nat → Option Nat) (n : Nat) : scanDown f n ≤ n := by
  induction n with
  | zero => simp [scanDown]
  | succ n ih => unfold scanDown; split <;> omega

theorem scanDown_above (f : Nat → Option Nat) (n j : Nat) (h1 : scanDown f n ≤ j)
    (h2 : j < n) : f j = none := by
  induction n with
  | zero => omega
  | succ n ih =>
    unfold scanDown at h1
    split at h1
    · rename_i hn
      rcases Nat.lt_or_ge j n with h | h
      · exact ih h1 h
      · have : j = n := by omega
        subst this; exact hn
    · omega

theorem scanDown_last (f : Nat → Option Nat) (n : Nat) (h : 0 < scanDown f n) :
    f (scanDown f n - 1) ≠ none := by
  induction n with
  | zero => simp [scanDown] at h
  | succ n ih =>
    unfold scanDown at h ⊢
    split
    · rename_i hn
      rw [hn] at h
      exact ih h
    · rename_i v hn
      simp [hn]

theorem nextEmpty_spec (cap : Nat) (f : Nat → Option Nat) (e : Nat)
    (hex : ∃ i, e < i ∧ i < cap ∧ f i = none) :
    e < nextEmpty cap f e ∧ nextEmpty cap f e < cap ∧ f (nextEmpty cap f e) = none ∧
      ∀ j, e < j → j < nextEmpty cap f e → f j ≠ none := by
  unfold nextEmpty
  cases hfind : (List.range' (e + 1) (cap - (e + 1))).find? (fun i => (f i).isNone) with
  | none =>
    exfalso
    obtain ⟨i, h1, h2, h3⟩ := hex
    rw [List.find?_eq_none] at hfind
    have := hfind i (by rw [List.mem_range'_1]; omega)
    simp [h3] at this
  | some i =>
    obtain ⟨hp, as, bs, heq, hall⟩ := List.find?_eq_some_iff_append.1 hfind
    have hmem : i ∈ List.range' (e + 1) (cap - (e + 1)) := by rw [heq]; simp
    rw [List.mem_range'_1] at hmem
    refine ⟨by simp only; omega, by simp only; omega, by simpa using hp, ?_⟩
    intro j hj1 hj2
    simp only at hj2
    have hjm : j ∈ List.range' (e + 1) (cap - (e + 1)) := by
      rw [List.mem_range'_1]; omega
    rw [heq] at hjm
    have hsorted : (as ++ i :: bs).Pairwise (· < ·) := by
      rw [← heq]; exact List.pairwise_lt_range'
    rw [List.pairwise_append] at hsorted
    obtain ⟨_, hib, _⟩ := hsorted
    rw [List.pairwise_cons] at hib
    rcases List.mem_append.1 hjm with h | h
    · have := hall j h
      intro hn
      simp [hn] at this
    · rcases List.mem_cons.1 h with h | h
      · omega
      · have := hib.1 j h; omega

/-! ### Preservation of the invariant -/

/-- Deleting an occupied slot preserves the invariant. -/
theorem inv_delete {cap : Nat} {c : Cell} (h : Inv cap c) {p a : Nat}
    (hp : c.atoms p = some a) : Inv cap (c.deleteAtom p) := by
  have hpf : p < c.firstClear := by
    by_contra hlt
    rw [h.above p (by omega)] at hp; cases hp
  have hpc : p < cap := lt_of_lt_of_le hpf h.clear_le
  have hupd : ∀ j, j ≠ p → Function.update c.atoms p none j = c.atoms j :=
    fun j hj => Function.update_of_ne hj _ _
  constructor
  · exact le_trans (scanDown_le _ _) h.clear_le
  · simp only [Cell.deleteAtom]; split
    · omega
    · exact h.empty_le
  · intro j hj
    simp only [Cell.deleteAtom] at hj ⊢
    split at hj
    · rw [hupd j (by omega)]; exact h.below j (by omega)
    · rw [hupd j (by omega)]; exact h.below j hj
  · intro j hj
    simp only [Cell.deleteAtom] at hj ⊢
    rcases Nat.lt_or_ge j c.firstClear with h1 | h1
    · exact scanDown_above _ _ _ hj h1
    · rw [hupd j (by omega)]; exact h.above j h1
  · exact scanDown_last _ _
  · simp only [Cell.deleteAtom]; intro hlt
    split at hlt
    · rename_i h1; simp [h1]
    · rename_i h1
      simp only [h1, if_false]
      by_cases he : c.firstEmpty = p
      · rw [he]; simp
      · rw [hupd _ he]; exact h.hole hlt
  · have := count_update_none hpc hp
    simp only [Cell.deleteAtom]
    rw [h.count]; omega

/-- Adding an atom to a cell that keeps at least one free slot afterwards, or
whose only free slot is the last one, succeeds and preserves the invariant. -/
theorem inv_add {cap : Nat} {c : Cell} (h : Inv cap c) (a : Nat)
    (hroom : c.nAtom + 1 < cap ∨ c.firstEmpty + 1 = cap) :
    ∃ c', c.addAtom cap a = some (c', c.firstEmpty) ∧ Inv cap c' ∧ c.firstEmpty < cap ∧
      c.atoms c.firstEmpty = none ∧
      c'.atoms = Function.update c.atoms c.firstEmpty (some a) ∧
      c'.nAtom = c.nAtom + 1 := by
  have hef := h.empty_le_clear
  have hne : c.firstEmpty < cap := by
    rcases hroom with hr | hr
    · by_contra hge
      have : c.firstEmpty = cap := by have := h.empty_le; omega
      have hall := count_eq_of_all (cap := cap) (f := c.atoms) (fun j hj => h.below j (by omega))
      rw [h.count, hall] at hr; omega
    · omega
  have hhole := h.hole hne
  have hcnt := count_update_some (a := a) hne hhole
  have hupd : ∀ j, j ≠ c.firstEmpty →
      Function.update c.atoms c.firstEmpty (some a) j = c.atoms j :=
    fun j hj => Function.update_of_ne hj _ _
  unfold Cell.addAtom
  rw [if_neg (by omega)]
  simp only
  by_cases h1 : c.firstEmpty < cap - 1
  · rw [if_pos h1]
    by_cases h2 : c.firstEmpty = c.firstClear
    · rw [if_pos h2]
      refine ⟨_, rfl, ?_, hne, hhole, rfl, rfl⟩
      constructor
      · simp only; omega
      · simp only; omega
      · intro j hj
        simp only at hj ⊢
        by_cases hje : j = c.firstEmpty
        · subst hje; simp
        · rw [hupd j hje]; exact h.below j (by omega)
      · intro j hj
        simp only at hj ⊢
        rw [hupd j (by omega)]; exact h.above j (by omega)
      · intro _
        simp only
        rw [show c.firstClear + 1 - 1 = c.firstEmpty by omega]; simp
      · intro _
        simp only
        rw [hupd _ (by omega)]; exact h.above _ (by omega)
      · simp only; rw [hcnt, h.count]; push_cast; rfl
    · rw [if_neg h2]
      refine ⟨_, rfl, ?_, hne, hhole, rfl, rfl⟩
      have hex : ∃ i, c.firstEmpty < i ∧ i < cap ∧
          Function.update c.atoms c.firstEmpty (some a) i = none := by
        rcases hroom with hr | hr
        · by_contra hno
          push Not at hno
          have hall := count_eq_of_all (cap := cap)
            (f := Function.update c.atoms c.firstEmpty (some a)) (by
              intro j hj
              rcases Nat.lt_trichotomy j c.firstEmpty with h3 | h3 | h3
              · rw [hupd j (by omega)]; exact h.below j h3
              · subst h3; simp
              · exact hno j h3 hj)
          rw [hall] at hcnt
          rw [h.count] at hr
          omega
        · omega
      obtain ⟨s1, s2, s3, s4⟩ := nextEmpty_spec cap _ _ hex
      constructor
      · exact h.clear_le
      · simp only; omega
      · intro j hj
        simp only at hj ⊢
        rcases Nat.lt_trichotomy j c.firstEmpty with h3 | h3 | h3
        · rw [hupd j (by omega)]; exact h.below j h3
        · subst h3; simp
        · exact s4 j h3 hj
      · intro j hj
        simp only at hj ⊢
        rw [hupd j (by omega)]; exact h.above j hj
      · intro hpos
        simp only at hpos ⊢
        by_cases h3 : c.firstClear - 1 = c.firstEmpty
        · rw [h3]; simp
        · rw [hupd _ h3]; exact h.last hpos
      · intro _; exact s3
      · simp only; rw [hcnt, h.count]; push_cast; rfl
  · rw [if_neg h1]
    refine ⟨_, rfl, ?_, hne, hhole, rfl, rfl⟩
    constructor
    · exact le_rfl
    · exact le_rfl
    · intro j hj
      simp only at hj ⊢
      by_cases hje : j = c.firstEmpty
      · subst hje; simp
      · rw [hupd j hje]; exact h.below j (by omega)
    · intro j hj
      simp only at hj ⊢
      rw [hupd j (by omega)]; exact h.above j (by have := h.clear_le; omega)
    · intro _
      simp only
      rw [show cap - 1 = c.firstEmpty by omega]; simp
    · intro hlt; simp at hlt
    · simp only; rw [hcnt, h.count]; push_cast; rfl

/-- The code never writes outside the array. -/
theorem addAtom_slot_lt {cap : Nat} {c c' : Cell} {a p : Nat} (h : Inv cap c)
    (hadd : c.addAtom cap a = some (c', p)) : p < cap := by
  unfold Cell.addAtom at hadd
  split at hadd
  · cases hadd
  · rename_i hne
    have := h.empty_le
    simp only at hadd
    split at hadd
    · split at hadd <;> (simp only [Option.some.injEq, Prod.mk.injEq] at hadd; omega)
    · simp only [Option.some.injEq, Prod.mk.injEq] at hadd; omega

/-- A full valid cell refuses a further atom. -/
theorem add_full {cap : Nat} {c : Cell} (h : Inv cap c) (hn : c.nAtom = cap) (a : Nat) :
    c.addAtom cap a = none := by
  unfold Cell.addAtom
  rw [if_pos]
  by_contra hne
  have hlt : c.firstEmpty < cap := lt_of_le_of_ne h.empty_le hne
  have := count_lt_of_none hlt (h.hole hlt)
  rw [h.count] at hn
  omega

/-- The atoms visited by the neighbour loops are those in the first `cap`
slots. -/
theorem list_eq {cap : Nat} {c : Cell} (h : Inv cap c) :
    c.list = (List.range cap).filterMap c.atoms := by
  unfold Cell.list
  have hsplit : List.range cap = List.range c.firstClear ++
      (List.range (cap - c.firstClear)).map (c.firstClear + ·) := by
    rw [← List.range_add]; congr 1; have := h.clear_le; omega
  rw [hsplit, List.filterMap_append]
  have : List.filterMap c.atoms ((List.range (cap - c.firstClear)).map (c.firstClear + ·))
      = [] := by
    rw [List.filterMap_eq_nil_iff]
    intro x hx
    obtain ⟨y, _, rfl⟩ := List.mem_map.1 hx
    exact h.above _ (by omega)
  rw [this, List.append_nil]

theorem mem_list {cap : Nat} {c : Cell} (h : Inv cap c) (a : Nat) :
    a ∈ c.list ↔ ∃ p, c.atoms p = some a := by
  unfold Cell.list
  rw [List.mem_filterMap]
  constructor
  · rintro ⟨p, _, hp⟩; exact ⟨p, hp⟩
  · rintro ⟨p, hp⟩
    refine ⟨p, ?_, hp⟩
    rw [List.mem_range]
    by_contra hlt
    rw [h.above p (by omega)] at hp; cases hp

theorem nodup_list {c : Cell}
    (hinj : ∀ p q a, c.atoms p = some a → c.atoms q = some a → p = q) : c.list.Nodup := by
  unfold Cell.list
  apply List.Nodup.filterMap
  · intro p q a hp hq
    exact hinj p q a hp hq
  · exact List.nodup_range

/-! ### Cell with tags -/

/-- Relation between the concrete state and the set of live atoms. -/
structure Rel (cap : Nat) (s : St) (S : Finset Nat) : Prop where
  inv : Inv cap s.cell
  tag : ∀ a p, s.tag a = some p ↔ s.cell.atoms p = some a
  live : ∀ a, a ∈ S ↔ ∃ p, s.tag a = some p

theorem Rel.inj {cap : Nat} {s : St} {S : Finset Nat} (h : Rel cap s S) :
    ∀ p q a, s.cell.atoms p = some a → s.cell.atoms q = some a → p = q := by
  intro p q a hp hq
  have h1 := (h.tag a p).2 hp
  have h2 := (h.tag a q).2 hq
  rw [h1] at h2
  exact Option.some.inj h2

theorem Rel.toFinset {cap : Nat} {s : St} {S : Finset Nat} (h : Rel cap s S) :
    s.cell.list.toFinset = S := by
  ext a
  rw [List.mem_toFinset, mem_list h.inv, h.live]
  exact exists_congr fun p => (h.tag a p).symm

theorem Rel.card {cap : Nat} {s : St} {S : Finset Nat} (h : Rel cap s S) :
    s.cell.nAtom = S.card := by
  rw [h.inv.count, ← list_eq h.inv, ← h.toFinset,
    List.toFinset_card_of_nodup (nodup_list h.inj)]

theorem rel_init (cap : Nat) : Rel cap init ∅ := by
  constructor
  · exact inv_clear cap
  · intro a p; simp [init, Cell.clear]
  · intro a; simp [init]

theorem rel_add {cap : Nat} {s : St} {S : Finset Nat} (h : Rel cap s S) {a : Nat}
    (ha : a ∉ S) (hroom : S.card + 1 < cap ∨ s.cell.firstEmpty + 1 = cap) :
    ∃ s', step cap s (.add a) = .ok s' ∧ Rel cap s' (insert a S) := by
  obtain ⟨c', hadd, hinv, hlt, hhole, hat, hn⟩ := inv_add h.inv a (by
    rcases hroom with hr | hr
    · left; rw [h.card]; exact_mod_cast hr
    · right; exact hr)
  refine ⟨_, by simp only [step, hadd]; rfl, ?_⟩
  have htag : s.tag a = none := by
    rcases hta : s.tag a with _ | p
    · rfl
    · exact absurd ((h.live a).2 ⟨p, hta⟩) ha
  constructor
  · exact hinv
  · intro b p
    simp only [hat]
    by_cases hb : b = a
    · subst hb
      simp only [Function.update_self, Option.some.injEq]
      constructor
      · rintro rfl; simp
      · intro hp
        by_contra hne
        rw [Function.update_of_ne (Ne.symm hne)] at hp
        rw [← h.tag, htag] at hp; cases hp
    · rw [Function.update_of_ne hb, h.tag]
      by_cases hp : p = s.cell.firstEmpty
      · subst hp
        rw [hhole]; simp; exact fun h => hb h.symm
      · rw [Function.update_of_ne hp]
  · intro b
    rw [Finset.mem_insert]
    by_cases hb : b = a
    · subst hb; simp
    · simp only [Function.update_of_ne hb, ← h.live]; simp [hb]

theorem rel_del {cap : Nat} {s : St} {S : Finset Nat} (h : Rel cap s S) {a : Nat}
    (ha : a ∈ S) : ∃ s', step cap s (.del a) = .ok s' ∧ Rel cap s' (S.erase a) := by
  obtain ⟨p, hp⟩ := (h.live a).1 ha
  refine ⟨_, by simp only [step, hp]; rfl, ?_⟩
  have hat := (h.tag a p).1 hp
  constructor
  · exact inv_delete h.inv hat
  · intro b q
    simp only [Cell.deleteAtom]
    by_cases hb : b = a
    · subst hb
      simp only [Function.update_self, reduceCtorEq, false_iff]
      intro hq
      by_cases hqp : q = p
      · subst hqp; simp at hq
      · rw [Function.update_of_ne hqp] at hq
        exact hqp (h.inj q p b hq hat)
    · rw [Function.update_of_ne hb, h.tag]
      by_cases hqp : q = p
      · subst hqp
        simp [hat]; exact fun h => hb h.symm
      · rw [Function.update_of_ne hqp]
  · intro b
    rw [Finset.mem_erase]
    by_cases hb : b = a
    · subst hb; simp
    · simp only [Function.update_of_ne hb, ← h.live]; simp [hb]

end Verif.McCell
