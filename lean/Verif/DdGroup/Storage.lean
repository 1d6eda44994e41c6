import Verif.DdGroup.Model
import Verif.DdAtomStorage.Lemmas
import Mathlib.Data.Set.Card

/-!
# C09: the group storage refines a map from group id to group
-/

set_option autoImplicit false

namespace Verif.DdGroup

open Verif.DdAtomStorage (setAppend setRemove push setRemove_perm)

/-! ## Specification -/

/-- What a client observes: the map from id to group, and the pending group with
its current id. -/
structure Abs where
  M : ℤ → Option Nat
  pend : Option (Nat × ℤ)

/-- The stored groups. -/
def Abs.groups (a : Abs) : Set Nat := {g | ∃ i, a.M i = some g}

/-- Specification of the calls. -/
def Spec (cap : Nat) (total : ℤ) (a : Abs) (op : Op) (r : Res) (a' : Abs) : Prop :=
  match op with
  | .newPtr => (a.pend = none ∧ a.groups.ncard < cap ∧
        ∃ g, g < cap ∧ g ∉ a.groups ∧ r = .ptr g ∧ a' = { a with pend := some (g, -1) })
      ∨ (¬ (a.pend = none ∧ a.groups.ncard < cap) ∧ r = .fail ∧ a' = a)
  | .setNewId i => match a.pend with
    | none => r = .fail ∧ a' = a
    | some (g, _) => r = .ok ∧ a' = { a with pend := some (g, i) }
  | .returnPtr => match a.pend with
    | none => r = .fail ∧ a' = a
    | some _ => r = .ok ∧ a' = { a with pend := none }
  | .add => match a.pend with
    | none => r = .fail ∧ a' = a
    | some (g, k) =>
      if 0 ≤ k ∧ k < total ∧ a.M k = none then
        r = .ok ∧ a' = { M := Function.update a.M k (some g), pend := none }
      else r = .fail ∧ a' = a
  | .remove g => (∃ k, a.M k = some g ∧ r = .ok ∧ a' = { a with M := Function.update a.M k none })
      ∨ (g ∉ a.groups ∧ r = .fail ∧ a' = a)
  | .clearGroups => r = .ok ∧ a' = { a with M := fun _ => none }

/-- The rule of use: the pending group is not removed (it is returned by
`returnPtr`). -/
def Allowed (a : Abs) : Op → Prop
  | .remove g => a.pend.map Prod.fst ≠ some g
  | _ => True

/-- The observation of a store. -/
def obs (s : Store) : Abs := { M := find s, pend := s.pend.map (fun g => (g, s.ids g)) }

/-! ## Invariant -/

structure Inv (s : Store) : Prop where
  perm : (s.set ++ s.res ++ s.pend.toList).Perm (List.range s.cap)
  free : ∀ g, g ∉ s.set → s.pend ≠ some g → s.ids g = -1
  sound : ∀ i g, s.ptrs i = some g → g ∈ s.set ∧ s.ids g = i
  comp : ∀ g ∈ s.set, s.ptrs (s.ids g) = some g ∧ 0 ≤ s.ids g ∧ s.ids g < s.total

theorem inv_init (cap : Nat) (total : ℤ) : Inv (init cap total) := by
  constructor <;> simp [init]

theorem Inv.nodup {s : Store} (h : Inv s) : (s.set ++ s.res ++ s.pend.toList).Nodup :=
  h.perm.nodup_iff.2 List.nodup_range

theorem Inv.set_nodup {s : Store} (h : Inv s) : s.set.Nodup :=
  (List.nodup_append.1 (List.nodup_append.1 h.nodup).1).1

theorem Inv.length {s : Store} (h : Inv s) :
    s.set.length + s.res.length + s.pend.toList.length = s.cap := by
  have := h.perm.length_eq
  simp only [List.length_append, List.length_range] at this
  exact this

theorem Inv.disj_sr {s : Store} (h : Inv s) {g : Nat} (h1 : g ∈ s.set) (h2 : g ∈ s.res) : False :=
  (List.nodup_append.1 (List.nodup_append.1 h.nodup).1).2.2 g h1 g h2 rfl

theorem Inv.disj_p {s : Store} (h : Inv s) {g : Nat} (h1 : g ∈ s.set ∨ g ∈ s.res)
    (h2 : s.pend = some g) : False :=
  (List.nodup_append.1 h.nodup).2.2 g (List.mem_append.2 h1) g (by simp [h2]) rfl

theorem Inv.groups {s : Store} (h : Inv s) (g : Nat) : g ∈ (obs s).groups ↔ g ∈ s.set := by
  constructor
  · rintro ⟨i, hi⟩; exact (h.sound i g hi).1
  · intro hg; exact ⟨_, (h.comp g hg).1⟩

theorem Inv.ncard {s : Store} (h : Inv s) : (obs s).groups.ncard = s.set.length := by
  have : (obs s).groups = (s.set.toFinset : Set Nat) := by
    ext g; rw [h.groups]; simp
  rw [this, Set.ncard_coe_finset, List.toFinset_card_of_nodup h.set_nodup]

theorem Inv.isValid {s : Store} (h : Inv s) (hp : s.pend = none) : isValid s := by
  have := h.length
  rw [hp] at this
  exact ⟨by simpa using this, fun i g _ _ hi => (h.sound i g hi).2, fun g hg => (h.comp g hg).1⟩

theorem inv_newPtr {s : Store} (h : Inv s) (hp : s.pend = none) {g : Nat} {r : List Nat}
    (hr : s.res = g :: r) :
    Inv { s with res := r, pend := some g, ids := Function.update s.ids g (-1) } ∧ g ∉ s.set := by
  have hg : g ∉ s.set := fun hg => h.disj_sr hg (by rw [hr]; simp)
  refine ⟨⟨?_, ?_, ?_, ?_⟩, hg⟩
  · refine List.Perm.trans ?_ h.perm
    rw [hp, hr]
    simp only [Option.toList_none, Option.toList_some, List.append_nil]
    rw [List.append_assoc]
    exact List.Perm.append_left _ (List.perm_append_singleton g r)
  · intro x hx hxp
    simp only at hx hxp ⊢
    rw [Function.update_of_ne (fun e => hxp (by rw [e]))]
    exact h.free x hx (by rw [hp]; simp)
  · intro i x hi
    obtain ⟨h1, h2⟩ := h.sound i x hi
    refine ⟨h1, ?_⟩
    simp only
    rw [Function.update_of_ne (fun e => hg (by rw [← e]; exact h1))]
    exact h2
  · intro x hx
    simp only
    rw [Function.update_of_ne (fun e => hg (by rw [← e]; exact hx))]
    exact h.comp x hx

theorem inv_setNewId {s : Store} (h : Inv s) {g : Nat} (hp : s.pend = some g) (i : ℤ) :
    Inv { s with ids := Function.update s.ids g i } := by
  have hs : g ∉ s.set := fun h' => h.disj_p (.inl h') hp
  refine ⟨h.perm, ?_, ?_, ?_⟩
  · intro x hx hxp
    simp only at hx hxp ⊢
    rw [Function.update_of_ne (fun e => hxp (by rw [e]; exact hp))]
    exact h.free x hx hxp
  · intro k x hi
    obtain ⟨h1, h2⟩ := h.sound k x hi
    refine ⟨h1, ?_⟩
    simp only
    rw [Function.update_of_ne (fun e => hs (by rw [← e]; exact h1))]
    exact h2
  · intro x hx
    simp only
    rw [Function.update_of_ne (fun e => hs (by rw [← e]; exact hx))]
    exact h.comp x hx

theorem inv_returnPtr {s : Store} (h : Inv s) {g : Nat} (hp : s.pend = some g) :
    push s.cap s.res g = some (g :: s.res) ∧
    Inv { s with res := g :: s.res, pend := none, ids := Function.update s.ids g (-1) } := by
  have h0 := inv_setNewId h hp (-1)
  have hl := h.length
  rw [hp] at hl
  simp only [Option.toList_some, List.length_singleton] at hl
  refine ⟨by unfold push; rw [if_neg (by omega)], ⟨?_, ?_, h0.sound, h0.comp⟩⟩
  · refine List.Perm.trans ?_ h.perm
    rw [hp]
    simp only [Option.toList_none, Option.toList_some, List.append_nil]
    rw [List.append_assoc]
    exact List.Perm.append_left _ (List.perm_append_singleton g s.res).symm
  · intro x hx _
    simp only at hx ⊢
    by_cases hxg : x = g
    · subst hxg; simp
    · have := h0.free x hx (by simp only [hp]; intro e; exact hxg (Option.some.inj e).symm)
      exact this

theorem inv_add {s : Store} (h : Inv s) {g : Nat} (hp : s.pend = some g)
    (hr : ¬ (s.ids g < 0 ∨ s.ids g ≥ s.total)) (hf : s.ptrs (s.ids g) = none) :
    setAppend s.cap s.set g = some (s.set ++ [g]) ∧
    Inv { s with set := s.set ++ [g], ptrs := Function.update s.ptrs (s.ids g) (some g),
                 pend := none } := by
  have hs : g ∉ s.set := fun h' => h.disj_p (.inl h') hp
  have hl := h.length
  rw [hp] at hl
  simp only [Option.toList_some, List.length_singleton] at hl
  constructor
  · unfold setAppend
    rw [if_neg]
    rintro (h1 | h1)
    · exact hs h1
    · omega
  · refine ⟨?_, fun x hx _ => h.free x (fun h' => hx (by simp [h'])) (fun e => hx (by
      rw [hp] at e; simp [Option.some.inj e])), ?_, ?_⟩
    · refine List.Perm.trans ?_ h.perm
      rw [hp]
      simp only [Option.toList_none, Option.toList_some, List.append_nil]
      rw [List.append_assoc, List.append_assoc]
      exact List.Perm.append_left _ List.perm_append_comm
    · intro i x hi
      simp only at hi ⊢
      by_cases hii : i = s.ids g
      · subst hii
        simp only [Function.update_self, Option.some.injEq] at hi
        subst hi
        simp
      · rw [Function.update_of_ne hii] at hi
        obtain ⟨h1, h2⟩ := h.sound i x hi
        exact ⟨by simp [h1], h2⟩
    · intro x hx
      simp only at hx ⊢
      rcases List.mem_append.1 hx with hx | hx
      · have := h.comp x hx
        rw [Function.update_of_ne]
        · exact this
        · intro e; rw [e, hf] at this; cases this.1
      · simp only [List.mem_singleton] at hx
        subst hx
        simp only [Function.update_self, true_and]
        omega

theorem inv_remove {s : Store} (h : Inv s) {g : Nat} (hg : g ∈ s.set) :
    ∃ l, setRemove s.set g = some l ∧ push s.cap s.res g = some (g :: s.res) ∧
      Inv { s with res := g :: s.res, set := l, ptrs := Function.update s.ptrs (s.ids g) none,
                   ids := Function.update s.ids g (-1) } := by
  obtain ⟨l, h1, h2⟩ := setRemove_perm h.set_nodup hg
  have hl := h.length
  have hpos := List.length_pos_of_mem hg
  refine ⟨l, h1, by unfold push; rw [if_neg (by omega)], ⟨List.Perm.trans ?_ h.perm, ?_, ?_, ?_⟩⟩
  · simp only
    refine List.Perm.append_right _ ?_
    refine (List.perm_middle).trans ?_
    rw [← List.cons_append]
    exact List.Perm.append_right _ ((h2.cons g).trans (List.perm_cons_erase hg).symm)
  · intro x hx hxp
    simp only at hx hxp ⊢
    by_cases hxg : x = g
    · subst hxg; simp
    · rw [Function.update_of_ne hxg]
      refine h.free x (fun h' => hx (h2.mem_iff.2 ?_)) hxp
      exact h.set_nodup.mem_erase_iff.2 ⟨hxg, h'⟩
  · intro i x hi
    simp only at hi ⊢
    by_cases hii : i = s.ids g
    · subst hii; simp at hi
    · rw [Function.update_of_ne hii] at hi
      obtain ⟨h3, h4⟩ := h.sound i x hi
      have hxg : x ≠ g := by rintro rfl; exact hii h4.symm
      rw [Function.update_of_ne hxg]
      exact ⟨h2.mem_iff.2 (h.set_nodup.mem_erase_iff.2 ⟨hxg, h3⟩), h4⟩
  · intro x hx
    simp only at hx ⊢
    have hx' := h.set_nodup.mem_erase_iff.1 (h2.mem_iff.1 hx)
    rw [Function.update_of_ne hx'.1]
    have hc := h.comp x hx'.2
    rw [Function.update_of_ne]
    · exact hc
    · intro e
      have h3 := hc.1
      rw [e, (h.comp g hg).1] at h3
      exact hx'.1 (Option.some.inj h3).symm

theorem clearLoop_spec (l : List Nat) (s : Store) (h : Inv s) (hl : s.set = l.reverse) :
    ∃ t, clearLoop s l = (t, true) ∧ Inv t ∧ t.set = [] ∧ t.pend = s.pend ∧
      (∀ g, s.pend = some g → t.ids g = s.ids g) ∧ t.cap = s.cap ∧ t.total = s.total := by
  induction l generalizing s with
  | nil => exact ⟨s, rfl, h, hl, rfl, fun _ _ => rfl, rfl, rfl⟩
  | cons g l ih =>
    have hg : g ∈ s.set := by rw [hl]; simp
    obtain ⟨l', h1, h2, h3⟩ := inv_remove h hg
    -- popping the last element is the same as removing it
    have hnd := h.set_nodup
    have he : s.set.erase g = l.reverse := by
      rw [hl, List.reverse_cons] at hnd ⊢
      have : g ∉ l.reverse := by
        intro h'; exact (List.nodup_append.1 hnd).2.2 g h' g (by simp) rfl
      rw [List.erase_append_right _ this]
      simp
    have hperm : l'.Perm l.reverse := by
      obtain ⟨l'', h4, h5⟩ := setRemove_perm hnd hg
      rw [h1] at h4
      cases h4
      rw [← he]; exact h5
    simp only [clearLoop, h2]
    have hi : Inv { s with res := g :: s.res, set := l.reverse,
                           ptrs := Function.update s.ptrs (s.ids g) none,
                           ids := Function.update s.ids g (-1) } :=
      ⟨(List.Perm.append_right _ (List.Perm.append_right _ hperm.symm)).trans h3.perm,
       fun x hx hxp => h3.free x (fun h' => hx (hperm.mem_iff.1 h')) hxp,
       fun i x hi => ⟨hperm.mem_iff.1 (h3.sound i x hi).1, (h3.sound i x hi).2⟩,
       fun x hx => h3.comp x (hperm.mem_iff.2 hx)⟩
    obtain ⟨t, t1, t2, t3, t4, t5, t6, t7⟩ := ih _ hi rfl
    refine ⟨t, t1, t2, t3, t4, ?_, t6, t7⟩
    intro x hx
    rw [t5 x hx]
    simp only
    rw [Function.update_of_ne]
    rintro rfl
    exact h.disj_p (.inl hg) hx

/-! ## The theorems -/

theorem step_spec {s : Store} (h : Inv s) {op : Op} (ho : Allowed (obs s) op) :
    Inv (step s op).1 ∧ Spec s.cap s.total (obs s) op (step s op).2 (obs (step s op).1) ∧
    (step s op).1.cap = s.cap ∧ (step s op).1.total = s.total := by
  cases op with
  | newPtr =>
    have hp' : (obs s).pend = none ↔ s.pend = none := by simp [obs]
    simp only [step, newPtr, Spec]
    rw [hp', h.ncard]
    by_cases hp : s.pend = none
    swap
    · rw [if_pos hp]
      exact ⟨h, .inr ⟨fun c => hp c.1, rfl, rfl⟩, rfl, rfl⟩
    rw [if_neg (by simpa using hp)]
    have hl := h.length
    rw [hp] at hl
    simp only [Option.toList_none, List.length_nil, Nat.add_zero] at hl
    cases hr : s.res with
    | nil =>
      rw [hr] at hl
      simp only [List.length_nil, Nat.add_zero] at hl
      exact ⟨h, .inr ⟨fun c => by omega, rfl, rfl⟩, rfl, rfl⟩
    | cons g r =>
      rw [hr] at hl
      simp only [List.length_cons] at hl
      obtain ⟨h1, h2⟩ := inv_newPtr h hp hr
      refine ⟨h1, .inl ⟨hp, by omega, g, ?_, fun h' => h2 ((h.groups g).1 h'), rfl, ?_⟩, rfl, rfl⟩
      · exact List.mem_range.1 (h.perm.mem_iff.1 (by rw [hr]; simp))
      · simp [obs]
        rfl
  | setNewId i =>
    simp only [Spec]
    cases hp : s.pend with
    | none =>
      have : (obs s).pend = none := by simp [obs, hp]
      have e : step s (.setNewId i) = (s, .fail) := by simp only [step, hp]
      rw [this, e]
      exact ⟨h, ⟨rfl, rfl⟩, rfl, rfl⟩
    | some g =>
      have : (obs s).pend = some (g, s.ids g) := by simp [obs, hp]
      have e : step s (.setNewId i) = ({ s with ids := Function.update s.ids g i }, .ok) := by
        simp only [step, hp]
      rw [this, e]
      refine ⟨inv_setNewId h hp i, ⟨rfl, ?_⟩, rfl, rfl⟩
      simp [obs, hp]
      rfl
  | returnPtr =>
    simp only [step, returnPtr, Spec]
    cases hp : s.pend with
    | none =>
      have : (obs s).pend = none := by simp [obs, hp]
      rw [this]
      exact ⟨h, ⟨rfl, rfl⟩, rfl, rfl⟩
    | some g =>
      have : (obs s).pend = some (g, s.ids g) := by simp [obs, hp]
      rw [this]
      obtain ⟨h1, h2⟩ := inv_returnPtr h hp
      simp only [h1]
      exact ⟨h2, ⟨trivial, rfl⟩, trivial, trivial⟩
  | add =>
    simp only [step, add, Spec]
    cases hp : s.pend with
    | none =>
      have : (obs s).pend = none := by simp [obs, hp]
      rw [this]
      exact ⟨h, ⟨rfl, rfl⟩, rfl, rfl⟩
    | some g =>
      have : (obs s).pend = some (g, s.ids g) := by simp [obs, hp]
      rw [this]
      simp only
      by_cases hr : s.ids g < 0 ∨ s.ids g ≥ s.total
      · rw [if_pos hr, if_neg (by omega)]
        exact ⟨h, ⟨rfl, rfl⟩, rfl, rfl⟩
      rw [if_neg hr]
      by_cases hf : s.ptrs (s.ids g) = none
      · obtain ⟨h1, h2⟩ := inv_add h hp hr hf
        rw [if_neg (by simpa using hf), h1, if_pos ⟨by omega, by omega, hf⟩]
        exact ⟨h2, ⟨rfl, rfl⟩, rfl, rfl⟩
      · rw [if_pos hf, if_neg (fun c => hf c.2.2)]
        exact ⟨h, ⟨rfl, rfl⟩, rfl, rfl⟩
  | remove g =>
    simp only [step, remove, Spec]
    by_cases hg : g ∈ s.set
    · have hc := h.comp g hg
      rw [if_neg (by omega), if_neg (by rw [hc.1]; simp)]
      obtain ⟨l, h1, h2, h3⟩ := inv_remove h hg
      simp only [h1, h2]
      refine ⟨h3, .inl ⟨s.ids g, hc.1, trivial, ?_⟩, trivial, trivial⟩
      unfold obs
      congr 1
      cases hp : s.pend with
      | none => rfl
      | some x =>
        simp only [Option.map_some]
        rw [Function.update_of_ne]
        rintro rfl
        exact h.disj_p (.inl hg) hp
    · have hng : g ∉ (obs s).groups := fun h' => hg ((h.groups g).1 h')
      by_cases hr : s.ids g < 0 ∨ s.ids g ≥ s.total
      · rw [if_pos hr]
        exact ⟨h, .inr ⟨hng, rfl, rfl⟩, rfl, rfl⟩
      rw [if_neg hr]
      by_cases hf : s.ptrs (s.ids g) = none
      · rw [if_pos hf]
        exact ⟨h, .inr ⟨hng, rfl, rfl⟩, rfl, rfl⟩
      · exfalso
        have := h.free g hg (fun e => ho (by simp [obs, e]))
        omega
  | clearGroups =>
    obtain ⟨t, t1, t2, t3, t4, t5, t6, t7⟩ := clearLoop_spec s.set.reverse s h (by simp)
    have e : step s .clearGroups = (t, .ok) := by
      simp only [step, clearGroups, t1, if_true]
    rw [e]
    refine ⟨t2, ⟨rfl, ?_⟩, t6, t7⟩
    have hM : find t = fun _ => none := by
      funext i
      unfold find
      cases hi : t.ptrs i with
      | none => rfl
      | some g => have := (t2.sound i g hi).1; rw [t3] at this; cases this
    unfold obs
    simp only [hM, t4]
    congr 1
    cases hp : s.pend with
    | none => rfl
    | some x => simp only [Option.map_some]; rw [t5 x hp]

/-- Every call of the history obeys the rule of use. -/
def AllowedHist (s : Store) : List Op → Prop
  | [] => True
  | op :: ops => Allowed (obs s) op ∧ AllowedHist (step s op).1 ops

/-- The observations along a history satisfy the specification call by call. -/
def SpecHist (cap : Nat) (total : ℤ) (s : Store) : List Op → Prop
  | [] => True
  | op :: ops => Spec cap total (obs s) op (step s op).2 (obs (step s op).1) ∧
      SpecHist cap total (step s op).1 ops

theorem run_spec (ops : List Op) {s : Store} (h : Inv s) (ho : AllowedHist s ops) :
    Inv (run s ops) ∧ SpecHist s.cap s.total s ops ∧ (run s ops).cap = s.cap ∧
      (run s ops).total = s.total := by
  induction ops generalizing s with
  | nil => exact ⟨h, trivial, rfl, rfl⟩
  | cons op ops ih =>
    obtain ⟨h1, h2, h3, h4⟩ := step_spec h ho.1
    obtain ⟨r1, r2, r3, r4⟩ := ih h1 ho.2
    rw [h3, h4] at r2
    exact ⟨r1, ⟨h2, r2⟩, r3.trans h3, r4.trans h4⟩

/-- **C09, refinement.** Along every history of calls, including failing ones, the
lookup table behaves as a map from group id to group. -/
theorem C09_calls (cap : Nat) (total : ℤ) (ops : List Op) (ho : AllowedHist (init cap total) ops) :
    (∀ i, find (init cap total) i = none) ∧ SpecHist cap total (init cap total) ops :=
  ⟨fun _ => rfl, (run_spec ops (inv_init cap total) ho).2.1⟩

/-- **C09, slots and answers.** After every history each slot is in exactly one of the
three places; an iteration visits exactly the groups of the map, each once; a group
has the id under which it is found; the validity check passes when nothing is
pending. -/
theorem C09_slots (cap : Nat) (total : ℤ) (ops : List Op) (ho : AllowedHist (init cap total) ops) :
    let t := run (init cap total) ops
    (∀ g, t.set.count g + t.res.count g + t.pend.toList.count g = if g < cap then 1 else 0) ∧
    (∀ g, g ∈ t.set ↔ g ∈ (obs t).groups) ∧ t.set.Nodup ∧
    (∀ i g, find t i = some g → t.ids g = i ∧ 0 ≤ i ∧ i < total) ∧
    (t.pend = none → isValid t) := by
  intro t
  obtain ⟨h1, -, h3, h4⟩ := run_spec ops (inv_init cap total) ho
  refine ⟨?_, fun g => (h1.groups g).symm, h1.set_nodup, ?_, h1.isValid⟩
  · intro g
    have := h1.perm.count_eq g
    rw [List.count_append, List.count_append] at this
    rw [this, h3]
    show (List.range cap).count g = _
    by_cases hg : g < cap
    · rw [if_pos hg, List.count_eq_one_of_mem List.nodup_range (List.mem_range.2 hg)]
    · rw [if_neg hg, List.count_eq_zero]
      simpa using hg
  · intro i g hi
    obtain ⟨h5, h6⟩ := h1.sound i g hi
    have h7 := h1.comp g h5
    rw [h6, h4] at h7
    exact ⟨h6, h7.2⟩

/-- A history with a duplicate id (refused and returned), a removal and reuse. -/
def demo : List Op :=
  [.newPtr, .setNewId 4, .add, .newPtr, .setNewId 4, .add, .returnPtr, .newPtr, .setNewId 5, .add,
   .newPtr, .remove 0, .remove 0, .newPtr, .setNewId 6, .add]

example : AllowedHist (init 2 10) demo := by
  simp only [demo, AllowedHist, Allowed, and_true, true_and]
  decide

example : (run (init 2 10) demo).set = [1, 0] ∧ find (run (init 2 10) demo) 6 = some 0 := by
  decide

/-- Why the rule of use is needed: `remove` does not compare the stored pointer with
its argument.  Removing the pending group, when its id is in use, throws, but only
after the slot has been pushed on the free stack; the slot is then both pending and
free, and a later `newPtr` after `add` hands out a group that is in use. -/
theorem C09_remove_pending_duplicates_slot :
    let s := run (init 3 10) [.newPtr, .setNewId 4, .add, .newPtr, .setNewId 4]
    let r := step s (.remove 1)
    let t := run r.1 [.setNewId 5, .add]
    r.2 = .fail ∧ r.1.pend = some 1 ∧ 1 ∈ r.1.res ∧
    1 ∈ t.set ∧ (step t .newPtr).2 = .ptr 1 := by
  decide

end Verif.DdGroup
