/-
C34: reservoirs and systems conserve molecules.
-/
import Verif.McPool.Model
import Mathlib.Data.List.Perm.Basic
import Mathlib.Data.Fintype.Card

set_option autoImplicit false

namespace Verif.McPool

open Verif.Cpp
open Verif.Cpp.Out

/-! ### Specification -/

/-- Where a molecule is: in the reservoir, with the caller (between `getMolecule`
and `addMolecule`, or between `removeMolecule` and `returnMolecule`), or in a
system. -/
inductive Place where
  | pool
  | hand
  | sys (S : ℕ)
  deriving DecidableEq

/-- The molecule `i` of species `k` moves to `x`. -/
def move (pl : ℕ → ℕ → Place) (k i : ℕ) (x : Place) : ℕ → ℕ → Place :=
  fun k' i' => if k' = k ∧ i' = i then x else pl k' i'

/-- States reached by any sequence of calls in which only molecules that the
caller holds are added and returned, with the place of each molecule. -/
inductive Reach (nSp : ℕ) (cap : ℕ → ℕ) : Pool → (ℕ → ℕ → Place) → Prop
  | init {p : Pool} (h : init nSp cap = ok p) : Reach nSp cap p fun _ _ => .pool
  | get {p p' : Pool} {pl : ℕ → ℕ → Place} {k i : ℕ} (h : Reach nSp cap p pl)
      (e : getMol k p = ok (p', i)) : Reach nSp cap p' (move pl k i .hand)
  | ret {p p' : Pool} {pl : ℕ → ℕ → Place} {k i : ℕ} (h : Reach nSp cap p pl)
      (hk : k < nSp) (hi : i < cap k) (hh : pl k i = .hand) (e : retMol k i p = ok p') :
      Reach nSp cap p' (move pl k i .pool)
  | add {p p' : Pool} {pl : ℕ → ℕ → Place} {S k i : ℕ} (h : Reach nSp cap p pl)
      (hk : k < nSp) (hi : i < cap k) (hh : pl k i = .hand) (e : addMol S k i p = ok p') :
      Reach nSp cap p' (move pl k i (.sys S))
  | remove {p p' : Pool} {pl : ℕ → ℕ → Place} {S k i : ℕ} (h : Reach nSp cap p pl)
      (e : remMol S k i p = ok p') : Reach nSp cap p' (move pl k i .hand)
  | removeAll {p p' : Pool} {pl : ℕ → ℕ → Place} {S : ℕ} (h : Reach nSp cap p pl)
      (e : removeAll S p = ok p') :
      Reach nSp cap p' fun k i => if k < nSp ∧ pl k i = .sys S then .pool else pl k i

/-! ### ArraySet -/

/-- Tags are the positions of the elements. -/
structure ASet.OK (cap : ℕ) (s : ASet) : Prop where
  tag : ∀ i t, s.tags i = some t ↔ s.elems[t]? = some i
  lt : ∀ i ∈ s.elems, i < cap

theorem ASet.OK.nodup {cap : ℕ} {s : ASet} (h : s.OK cap) : s.elems.Nodup := by
  rw [List.nodup_iff_getElem?_ne_getElem?]
  intro i j hij hj he
  have h1 : s.elems[i]? = some s.elems[i] := List.getElem?_eq_getElem (by omega)
  have h2 := (h.tag _ _).mpr h1
  rw [he] at h1
  have h3 := (h.tag _ _).mpr h1
  rw [h2] at h3
  have := Option.some.inj h3
  omega

theorem ASet.OK.mem {cap : ℕ} {s : ASet} (h : s.OK cap) (i : ℕ) :
    i ∈ s.elems ↔ (s.tags i).isSome = true := by
  rw [List.mem_iff_getElem?, Option.isSome_iff_exists]
  exact exists_congr fun t => (h.tag i t).symm

theorem ASet.OK.length {cap : ℕ} {s : ASet} (h : s.OK cap) : s.elems.length ≤ cap := by
  have : s.elems ⊆ List.range cap := fun x hx => List.mem_range.mpr (h.lt x hx)
  simpa using (h.nodup.subperm this).length_le

theorem ASet.append_ok {cap : ℕ} {s : ASet} (h : s.OK cap) {i : ℕ} (hi : i < cap)
    (hn : i ∉ s.elems) : ∃ s', s.append cap i = ok s' ∧ s'.OK cap ∧ s'.elems = s.elems ++ [i] := by
  have ht : s.tags i = none := by
    rw [h.mem] at hn; simpa using hn
  have hlt : s.elems.length < cap := by
    have hsub : (i :: s.elems) ⊆ List.range cap := by
      intro x hx
      rcases List.mem_cons.mp hx with rfl | hx
      · exact List.mem_range.mpr hi
      · exact List.mem_range.mpr (h.lt x hx)
    have := ((List.nodup_cons.mpr ⟨hn, h.nodup⟩).subperm hsub).length_le
    simp only [List.length_cons, List.length_range] at this
    omega
  refine ⟨_, by unfold ASet.append; rw [require_true hi, ok_bind, check_true ht, ok_bind,
    require_true hlt, ok_bind], ⟨fun j t => ?_, fun j hj => ?_⟩, rfl⟩
  · simp only []
    by_cases hj : j = i
    · subst hj
      rw [Function.update_self]
      constructor
      · intro e
        obtain rfl := Option.some.inj e
        simp
      · intro e
        rw [List.getElem?_append] at e
        split at e
        · exact absurd (List.mem_of_getElem? e) hn
        · rename_i hc
          have : t - s.elems.length = 0 := by
            by_contra hne
            rw [List.getElem?_eq_none (by simp; omega)] at e
            cases e
          congr 1; omega
    · rw [Function.update_of_ne hj, h.tag]
      rw [List.getElem?_append]
      split
      · rfl
      · rename_i hc
        constructor
        · intro e; have := (List.getElem?_eq_some_iff.mp e).1; omega
        · intro e
          have := List.mem_of_getElem? e
          simp only [List.mem_singleton] at this
          exact absurd this hj
  · rcases List.mem_append.mp hj with hj | hj
    · exact h.lt j hj
    · simp only [List.mem_singleton] at hj; rw [hj]; exact hi

theorem ASet.append_mem {cap : ℕ} {s : ASet} (h : s.OK cap) {i : ℕ} (hi : i < cap)
    (hn : i ∈ s.elems) : s.append cap i = throw := by
  unfold ASet.append
  rw [require_true hi, ok_bind, check_false, throw_bind]
  rw [h.mem] at hn
  intro hc; rw [hc] at hn; simp at hn

theorem ASet.remove_ok {cap : ℕ} {s : ASet} (h : s.OK cap) {i : ℕ} (hi : i ∈ s.elems) :
    ∃ s', s.remove cap i = ok s' ∧ s'.OK cap ∧ (∀ j, j ∈ s'.elems ↔ j ∈ s.elems ∧ j ≠ i) ∧
      s'.elems.length + 1 = s.elems.length ∧
      (s.elems.getD (s.elems.length - 1) 0 = i → s'.elems = s.elems.take (s.elems.length - 1)) := by
  obtain ⟨t, ht⟩ := Option.isSome_iff_exists.mp ((h.mem i).mp hi)
  have hti := (h.tag i t).mp ht
  have htl := (List.getElem?_eq_some_iff.mp hti).1
  set n := s.elems.length - 1 with hn
  have hnl : n < s.elems.length := by omega
  have hlast : s.elems[n]? = some (s.elems.getD n 0) := by
    rw [List.getD_eq_getElem?_getD, List.getElem?_eq_getElem hnl]; rfl
  set last := s.elems.getD n 0 with hlastdef
  -- entries of the new list
  have key : s.remove cap i = ok (s.removeAt i t) := by
    unfold ASet.remove
    rw [require_true (h.lt i hi), ok_bind, ht]
  have hget : ∀ u, (s.removeAt i t).elems[u]? =
      if u < n then (if u = t then some last else s.elems[u]?) else none := by
    intro u
    unfold ASet.removeAt
    simp only [← hn, ← hlastdef]
    by_cases hc : t ≠ n
    · rw [if_pos hc]
      simp only [List.getElem?_take, List.getElem?_set]
      by_cases hu : u < n
      · rw [if_pos hu, if_pos hu]
        by_cases hut : t = u
        · rw [if_pos hut, if_pos (by omega), if_pos hut.symm]
        · rw [if_neg hut, if_neg (Ne.symm hut)]
      · rw [if_neg hu, if_neg hu]
    · rw [if_neg hc]
      simp only [List.getElem?_take]
      by_cases hu : u < n
      · rw [if_pos hu, if_pos hu, if_neg (by omega)]
      · rw [if_neg hu, if_neg hu]
  have htags : ∀ j, (s.removeAt i t).tags j =
      if j = i then none else if j = last ∧ t ≠ n then some t else s.tags j := by
    intro j
    unfold ASet.removeAt
    simp only [← hn, ← hlastdef]
    by_cases hc : t ≠ n
    · rw [if_pos hc]
      simp only []
      by_cases hj : j = i
      · subst hj; rw [Function.update_self, if_pos rfl]
      · rw [Function.update_of_ne hj, if_neg hj]
        by_cases hjl : j = last
        · rw [hjl, Function.update_self, if_pos ⟨rfl, hc⟩]
        · rw [Function.update_of_ne hjl, if_neg (by simp [hjl])]
    · rw [if_neg hc]
      simp only []
      by_cases hj : j = i
      · subst hj; rw [Function.update_self, if_pos rfl]
      · rw [Function.update_of_ne hj, if_neg hj, if_neg (by simp [hc])]
  have hpos : ∀ u v x : ℕ, s.elems[u]? = some x → s.elems[v]? = some x → u = v := by
    intro u v x hu hv
    have h1 := (h.tag x u).mpr hu
    rw [(h.tag x v).mpr hv] at h1
    exact (Option.some.inj h1).symm
  have hlasti : last = i → t = n := fun he => hpos t n i hti (he ▸ hlast)
  have hOK : ∀ j u, (s.removeAt i t).tags j = some u ↔ (s.removeAt i t).elems[u]? = some j := by
    intro j u
    rw [hget, htags]
    by_cases hj : j = i
    · subst hj
      rw [if_pos rfl]
      constructor
      · intro e; cases e
      · intro e
        split at e
        · rename_i hu
          split at e
          · rename_i hut
            have := hlasti (Option.some.inj e)
            omega
          · rename_i hut
            exact absurd (hpos u t j e hti) hut
        · cases e
    · rw [if_neg hj]
      by_cases hjl : j = last ∧ t ≠ n
      · rw [if_pos hjl]
        constructor
        · intro e
          obtain rfl := Option.some.inj e
          rw [if_pos (by omega), if_pos rfl, hjl.1]
        · intro e
          split at e
          · split at e
            · rename_i hut; rw [hut]
            · rename_i hu hut
              rw [hjl.1] at e
              have := hpos u n last e hlast
              omega
          · cases e
      · rw [if_neg hjl, h.tag]
        constructor
        · intro e
          have hul := (List.getElem?_eq_some_iff.mp e).1
          have hun : u ≠ n := by
            rintro rfl
            rw [hlast] at e
            have hl := (Option.some.inj e).symm
            have : t = n := by by_contra hc; exact hjl ⟨hl, hc⟩
            subst this
            rw [hti] at hlast
            exact hj (hl.trans (Option.some.inj hlast).symm)
          rw [if_pos (by omega), if_neg, e]
          rintro rfl
          rw [hti] at e
          exact hj (Option.some.inj e).symm
        · intro e
          split at e
          · rename_i hu
            split at e
            · rename_i hut
              have hl := (Option.some.inj e).symm
              exact absurd ⟨hl, by omega⟩ hjl
            · exact e
          · cases e
  have hmem : ∀ j, j ∈ (s.removeAt i t).elems ↔ j ∈ s.elems ∧ j ≠ i := by
    intro j
    constructor
    · intro hj
      obtain ⟨u, hu⟩ := List.mem_iff_getElem?.mp hj
      have h1 := (hOK j u).mpr hu
      rw [htags] at h1
      have hji : j ≠ i := by rintro rfl; rw [if_pos rfl] at h1; cases h1
      refine ⟨?_, hji⟩
      rw [hget] at hu
      split at hu
      · split at hu
        · rw [← Option.some.inj hu]; exact List.mem_of_getElem? hlast
        · exact List.mem_of_getElem? hu
      · cases hu
    · rintro ⟨hj, hji⟩
      obtain ⟨u, hu⟩ := Option.isSome_iff_exists.mp ((h.mem j).mp hj)
      have : ((s.removeAt i t).tags j).isSome = true := by
        rw [htags, if_neg hji]
        split
        · rfl
        · rw [hu]; rfl
      obtain ⟨v, hv⟩ := Option.isSome_iff_exists.mp this
      exact List.mem_of_getElem? ((hOK j v).mp hv)
  refine ⟨_, key, ⟨hOK, fun j hj => h.lt j ((hmem j).mp hj).1⟩, hmem, ?_, ?_⟩
  · unfold ASet.removeAt
    simp only [← hn]
    split <;> simp <;> omega
  · intro he
    have : t = n := hlasti he
    unfold ASet.removeAt
    simp only [← hn]
    rw [if_neg (by omega)]

/-! ### Invariant -/

/-- The contents of the reservoirs and of the systems agree with the places of
the molecules. -/
structure Inv (nSp : ℕ) (cap : ℕ → ℕ) (p : Pool) (pl : ℕ → ℕ → Place) : Prop where
  num : p.nSp = nSp
  caps : p.cap = cap
  nodup : ∀ k < nSp, (p.res k).Nodup
  res : ∀ k < nSp, ∀ i, i ∈ p.res k ↔ i < cap k ∧ pl k i = .pool
  good : ∀ S, ∀ k < nSp, (p.set S k).OK (cap k)
  set : ∀ S, ∀ k < nSp, ∀ i, i ∈ (p.set S k).elems ↔ i < cap k ∧ pl k i = .sys S
  sys : ∀ k < nSp, ∀ i < cap k, ∀ S, p.sys k i = some S ↔ pl k i = .sys S

section
variable {nSp : ℕ} {cap : ℕ → ℕ}

theorem move_self (pl : ℕ → ℕ → Place) (k i : ℕ) (x : Place) : move pl k i x k i = x := by
  simp [move]

theorem move_ne (pl : ℕ → ℕ → Place) {k i k' i' : ℕ} (x : Place) (h : ¬ (k' = k ∧ i' = i)) :
    move pl k i x k' i' = pl k' i' := by
  rw [move, if_neg h]

/-- A molecule with the caller is not in the stack, so that the stack is not
full. -/
theorem Inv.notFull {p : Pool} {pl : ℕ → ℕ → Place} (h : Inv nSp cap p pl) {k i : ℕ}
    (hk : k < nSp) (hi : i < cap k) (hh : pl k i ≠ .pool) : (p.res k).length < cap k := by
  have hn : i ∉ p.res k := fun hc => hh ((h.res k hk i).mp hc).2
  have hsub : (i :: p.res k) ⊆ List.range (cap k) := by
    intro x hx
    rcases List.mem_cons.mp hx with rfl | hx
    · exact List.mem_range.mpr hi
    · exact List.mem_range.mpr ((h.res k hk x).mp hx).1
  have := ((List.nodup_cons.mpr ⟨hn, h.nodup k hk⟩).subperm hsub).length_le
  simp only [List.length_cons, List.length_range] at this
  omega

theorem Inv.get {p : Pool} {pl : ℕ → ℕ → Place} (h : Inv nSp cap p pl) {k : ℕ} (hk : k < nSp) :
    (p.res k = [] ∧ getMol k p = throw) ∨
    ∃ i l, p.res k = i :: l ∧ getMol k p = ok (p.setRes k l, i) ∧ i < cap k ∧ pl k i = .pool ∧
      Inv nSp cap (p.setRes k l) (move pl k i .hand) := by
  unfold getMol
  rw [require_true (by rw [h.num]; exact hk), ok_bind]
  cases hres : p.res k with
  | nil => exact Or.inl ⟨rfl, rfl⟩
  | cons i l =>
    have hi := (h.res k hk i).mp (by rw [hres]; exact List.mem_cons_self ..)
    have hnd := h.nodup k hk
    rw [hres, List.nodup_cons] at hnd
    refine Or.inr ⟨i, l, rfl, rfl, hi.1, hi.2, h.num, h.caps, ?_, ?_, h.good, ?_, ?_⟩
    · intro k' hk'
      simp only [Pool.setRes]
      by_cases hkk : k' = k
      · subst hkk; rw [Function.update_self]; exact hnd.2
      · rw [Function.update_of_ne hkk]; exact h.nodup k' hk'
    · intro k' hk' j
      simp only [Pool.setRes]
      by_cases hkk : k' = k
      · subst hkk
        rw [Function.update_self]
        have hj := h.res k' hk' j
        rw [hres, List.mem_cons] at hj
        by_cases hji : j = i
        · subst hji
          rw [move_self]
          exact ⟨fun hc => absurd hc hnd.1, fun hc => by cases hc.2⟩
        · rw [move_ne _ _ (by simp [hji]), ← hj]
          simp [hji]
      · rw [Function.update_of_ne hkk, move_ne _ _ (by simp [hkk])]
        exact h.res k' hk' j
    · intro S k' hk' j
      rw [show (p.setRes k l).set = p.set from rfl, h.set S k' hk' j]
      by_cases hc : k' = k ∧ j = i
      · obtain ⟨rfl, rfl⟩ := hc
        rw [move_self, hi.2]
        simp
      · rw [move_ne _ _ hc]
    · intro k' hk' j hj S
      rw [show (p.setRes k l).sys = p.sys from rfl, h.sys k' hk' j hj S]
      by_cases hc : k' = k ∧ j = i
      · obtain ⟨rfl, rfl⟩ := hc
        rw [move_self, hi.2]
        simp
      · rw [move_ne _ _ hc]

theorem Inv.ret {p : Pool} {pl : ℕ → ℕ → Place} (h : Inv nSp cap p pl) {k i : ℕ} (hk : k < nSp)
    (hi : i < cap k) (hh : pl k i = .hand) :
    retMol k i p = ok (p.setRes k (i :: p.res k)) ∧
      Inv nSp cap (p.setRes k (i :: p.res k)) (move pl k i .pool) := by
  have hlen := h.notFull hk hi (by rw [hh]; simp)
  constructor
  · unfold retMol push
    rw [require_true (by rw [h.num]; exact hk), ok_bind, check_true (by rw [h.caps]; exact hlen),
      ok_bind]
  · have hn : i ∉ p.res k := fun hc => by
      have := ((h.res k hk i).mp hc).2
      rw [hh] at this; cases this
    refine ⟨h.num, h.caps, ?_, ?_, h.good, ?_, ?_⟩
    · intro k' hk'
      simp only [Pool.setRes]
      by_cases hkk : k' = k
      · subst hkk; rw [Function.update_self]; exact List.nodup_cons.mpr ⟨hn, h.nodup k' hk'⟩
      · rw [Function.update_of_ne hkk]; exact h.nodup k' hk'
    · intro k' hk' j
      simp only [Pool.setRes]
      by_cases hkk : k' = k
      · subst hkk
        rw [Function.update_self, List.mem_cons]
        by_cases hji : j = i
        · subst hji; rw [move_self]; simp [hi]
        · rw [move_ne _ _ (by simp [hji]), h.res k' hk' j]; simp [hji]
      · rw [Function.update_of_ne hkk, move_ne _ _ (by simp [hkk])]
        exact h.res k' hk' j
    · intro S k' hk' j
      rw [show (p.setRes k (i :: p.res k)).set = p.set from rfl, h.set S k' hk' j]
      by_cases hc : k' = k ∧ j = i
      · obtain ⟨rfl, rfl⟩ := hc
        rw [move_self, hh]
        simp
      · rw [move_ne _ _ hc]
    · intro k' hk' j hj S
      rw [show (p.setRes k (i :: p.res k)).sys = p.sys from rfl, h.sys k' hk' j hj S]
      by_cases hc : k' = k ∧ j = i
      · obtain ⟨rfl, rfl⟩ := hc
        rw [move_self, hh]
        simp
      · rw [move_ne _ _ hc]

theorem setSet_at (p : Pool) (S k : ℕ) (s : ASet) (S' k' : ℕ) :
    (p.setSet S k s).set S' k' = if S' = S ∧ k' = k then s else p.set S' k' := by
  simp only [Pool.setSet]
  by_cases hS : S' = S
  · subst hS
    rw [Function.update_self]
    by_cases hk : k' = k
    · subst hk; rw [Function.update_self, if_pos ⟨rfl, rfl⟩]
    · rw [Function.update_of_ne hk, if_neg (by simp [hk])]
  · rw [Function.update_of_ne hS, if_neg (by simp [hS])]

theorem setSys_at (p : Pool) (k i : ℕ) (x : Option ℕ) (k' i' : ℕ) :
    (p.setSys k i x).sys k' i' = if k' = k ∧ i' = i then x else p.sys k' i' := by
  simp only [Pool.setSys]
  by_cases hk : k' = k
  · subst hk
    rw [Function.update_self]
    by_cases hi : i' = i
    · subst hi; rw [Function.update_self, if_pos ⟨rfl, rfl⟩]
    · rw [Function.update_of_ne hi, if_neg (by simp [hi])]
  · rw [Function.update_of_ne hk, if_neg (by simp [hk])]

theorem Inv.add {p : Pool} {pl : ℕ → ℕ → Place} (h : Inv nSp cap p pl) {S k i : ℕ} (hk : k < nSp)
    (hi : i < cap k) (hh : pl k i = .hand) :
    ∃ p', addMol S k i p = ok p' ∧ Inv nSp cap p' (move pl k i (.sys S)) ∧
      (p'.set S k).elems = (p.set S k).elems ++ [i] := by
  have hn : i ∉ (p.set S k).elems := fun hc => by
    have := ((h.set S k hk i).mp hc).2
    rw [hh] at this; cases this
  obtain ⟨s, e, hs, hel⟩ := ASet.append_ok (h.good S k hk) hi hn
  refine ⟨(p.setSet S k s).setSys k i (some S), ?_, ⟨h.num, h.caps, h.nodup, ?_, ?_, ?_, ?_⟩, ?_⟩
  · unfold addMol
    rw [check_true (by rw [h.num]; exact hk), ok_bind, h.caps, e, ok_bind]
  · intro k' hk' j
    rw [show ((p.setSet S k s).setSys k i (some S)).res = p.res from rfl, h.res k' hk' j]
    by_cases hc : k' = k ∧ j = i
    · obtain ⟨rfl, rfl⟩ := hc; rw [move_self, hh]; simp
    · rw [move_ne _ _ hc]
  · intro S' k' hk'
    rw [show ((p.setSet S k s).setSys k i (some S)).set = (p.setSet S k s).set from rfl, setSet_at]
    by_cases hc : S' = S ∧ k' = k
    · rw [if_pos hc, hc.2]; exact hs
    · rw [if_neg hc]; exact h.good S' k' hk'
  · intro S' k' hk' j
    rw [show ((p.setSet S k s).setSys k i (some S)).set = (p.setSet S k s).set from rfl, setSet_at]
    by_cases hc : S' = S ∧ k' = k
    · obtain ⟨rfl, rfl⟩ := hc
      rw [if_pos ⟨rfl, rfl⟩, hel, List.mem_append, List.mem_singleton, h.set S' k' hk' j]
      by_cases hji : j = i
      · subst hji; rw [move_self]; simp [hi]
      · rw [move_ne _ _ (by simp [hji])]; simp [hji]
    · rw [if_neg hc, h.set S' k' hk' j]
      by_cases hc' : k' = k ∧ j = i
      · obtain ⟨rfl, rfl⟩ := hc'
        rw [move_self, hh]
        simp only [reduceCtorEq, and_false, Place.sys.injEq, false_iff, not_and]
        intro _ hSS
        exact hc ⟨hSS.symm, rfl⟩
      · rw [move_ne _ _ hc']
  · intro k' hk' j hj S'
    rw [setSys_at]
    by_cases hc : k' = k ∧ j = i
    · obtain ⟨rfl, rfl⟩ := hc; rw [if_pos ⟨rfl, rfl⟩, move_self]; simp
    · rw [if_neg hc, move_ne _ _ hc]; exact h.sys k' hk' j hj S'
  · rw [show ((p.setSet S k s).setSys k i (some S)).set = (p.setSet S k s).set from rfl, setSet_at,
      if_pos ⟨rfl, rfl⟩, hel]

theorem Inv.remove {p : Pool} {pl : ℕ → ℕ → Place} (h : Inv nSp cap p pl) {S k i : ℕ} (hk : k < nSp)
    (hi : i < cap k) (hh : pl k i = .sys S) :
    ∃ p', remMol S k i p = ok p' ∧ Inv nSp cap p' (move pl k i .hand) ∧ p'.res = p.res ∧
      (p'.set S k).elems.length + 1 = (p.set S k).elems.length ∧
      ((p.set S k).elems.getD ((p.set S k).elems.length - 1) 0 = i →
        (p'.set S k).elems = (p.set S k).elems.take ((p.set S k).elems.length - 1)) ∧
      ∀ S' k', ¬ (S' = S ∧ k' = k) → p'.set S' k' = p.set S' k' := by
  have hm := (h.set S k hk i).mpr ⟨hi, hh⟩
  have hsys := (h.sys k hk i hi S).mpr hh
  obtain ⟨s, e, hs, hel, hlen, hlast⟩ := ASet.remove_ok (h.good S k hk) hm
  refine ⟨(p.setSet S k s).setSys k i none, ?_, ⟨h.num, h.caps, h.nodup, ?_, ?_, ?_, ?_⟩, rfl, ?_,
    ?_, ?_⟩
  · unfold remMol
    rw [require_true (by rw [hsys]; rfl), ok_bind, check_true hsys, ok_bind,
      require_true (by rw [h.num]; exact hk), ok_bind, h.caps, e, ok_bind]
  · intro k' hk' j
    rw [show ((p.setSet S k s).setSys k i none).res = p.res from rfl, h.res k' hk' j]
    by_cases hc : k' = k ∧ j = i
    · obtain ⟨rfl, rfl⟩ := hc; rw [move_self, hh]; simp
    · rw [move_ne _ _ hc]
  · intro S' k' hk'
    rw [show ((p.setSet S k s).setSys k i none).set = (p.setSet S k s).set from rfl, setSet_at]
    by_cases hc : S' = S ∧ k' = k
    · rw [if_pos hc, hc.2]; exact hs
    · rw [if_neg hc]; exact h.good S' k' hk'
  · intro S' k' hk' j
    rw [show ((p.setSet S k s).setSys k i none).set = (p.setSet S k s).set from rfl, setSet_at]
    by_cases hc : S' = S ∧ k' = k
    · obtain ⟨rfl, rfl⟩ := hc
      rw [if_pos ⟨rfl, rfl⟩, hel j, h.set S' k' hk' j]
      by_cases hji : j = i
      · subst hji; rw [move_self]; simp
      · rw [move_ne _ _ (by simp [hji])]; simp [hji]
    · rw [if_neg hc, h.set S' k' hk' j]
      by_cases hc' : k' = k ∧ j = i
      · obtain ⟨rfl, rfl⟩ := hc'
        rw [move_self, hh]
        simp only [reduceCtorEq, and_false, Place.sys.injEq, iff_false, not_and]
        intro _ hSS
        exact hc ⟨hSS.symm, rfl⟩
      · rw [move_ne _ _ hc']
  · intro k' hk' j hj S'
    rw [setSys_at]
    by_cases hc : k' = k ∧ j = i
    · obtain ⟨rfl, rfl⟩ := hc; rw [if_pos ⟨rfl, rfl⟩, move_self]; simp
    · rw [if_neg hc, move_ne _ _ hc]; exact h.sys k' hk' j hj S'
  · rw [show ((p.setSet S k s).setSys k i none).set = (p.setSet S k s).set from rfl, setSet_at,
      if_pos ⟨rfl, rfl⟩]; exact hlen
  · rw [show ((p.setSet S k s).setSys k i none).set = (p.setSet S k s).set from rfl, setSet_at,
      if_pos ⟨rfl, rfl⟩]; exact hlast
  · intro S' k' hc
    rw [show ((p.setSet S k s).setSys k i none).set = (p.setSet S k s).set from rfl, setSet_at,
      if_neg hc]

/-! ### Filling the reservoirs -/

theorem fill_ok (p : Pool) {k : ℕ} (hk : k < p.nSp) (hr : p.res k = []) :
    fill p k = ok (p.setRes k (List.range (p.cap k))) := by
  obtain ⟨p', e, hp⟩ := loop_range_ok
    (P := fun j (q : Pool) => q = p.setRes k ((List.range (p.cap k)).drop (p.cap k - j)))
    (fun q j => push q k (q.cap k - 1 - j)) (p.cap k) p
    (by
      rw [Nat.sub_zero, List.drop_eq_nil_iff.mpr (by simp), ← hr]
      simp [Pool.setRes])
    (by
      rintro j hj q rfl
      refine ⟨_, ?_, rfl⟩
      unfold push
      rw [require_true (show k < (p.setRes k _).nSp from hk), ok_bind, check_true, ok_bind]
      · simp only [Pool.setRes, Function.update_self, Function.update_idem]
        congr 3
        have hlt : p.cap k - (j + 1) < (List.range (p.cap k)).length := by simp; omega
        rw [List.drop_eq_getElem_cons hlt]
        simp only [List.getElem_range]
        rw [show p.cap k - (j + 1) + 1 = p.cap k - j by omega,
          show p.cap k - (j + 1) = p.cap k - 1 - j by omega]
      · simp only [Pool.setRes, Function.update_self, List.length_drop, List.length_range]
        omega)
  unfold fill
  rw [e, hp, Nat.sub_self, List.drop_zero]

/-- The reservoirs after initialization: molecules leave them in the order of
their indices. -/
theorem init_ok (nSp : ℕ) (cap : ℕ → ℕ) :
    init nSp cap = ok ⟨nSp, cap, fun k => if k < nSp then List.range (cap k) else [],
      fun _ _ => ASet.empty, fun _ _ => none⟩ := by
  obtain ⟨p', e, hp⟩ := loop_range_ok
    (P := fun j (q : Pool) => q = ⟨nSp, cap, fun k => if k < j then List.range (cap k) else [],
      fun _ _ => ASet.empty, fun _ _ => none⟩)
    fill nSp ⟨nSp, cap, fun _ => [], fun _ _ => ASet.empty, fun _ _ => none⟩
    (by simp)
    (by
      rintro j hj q rfl
      refine ⟨_, fill_ok _ hj (by simp), ?_⟩
      simp only [Pool.setRes, Pool.mk.injEq, true_and, and_true]
      funext k
      by_cases hk : k = j
      · subst hk; simp
      · rw [Function.update_of_ne hk]
        by_cases h1 : k < j
        · rw [if_pos h1, if_pos (by omega)]
        · rw [if_neg h1, if_neg (by omega)])
  unfold init
  rw [e, hp]

theorem ASet.OK.empty (cap : ℕ) : ASet.empty.OK cap :=
  ⟨fun i t => by simp [ASet.empty], fun i hi => by simp [ASet.empty] at hi⟩

theorem Inv.init {p : Pool} (h : McPool.init nSp cap = ok p) : Inv nSp cap p fun _ _ => .pool := by
  rw [init_ok] at h
  cases h
  refine ⟨rfl, rfl, fun k hk => ?_, fun k hk i => ?_, fun S k hk => ASet.OK.empty _,
    fun S k hk i => ?_, fun k hk i hi S => ?_⟩
  · simp only [if_pos hk]; exact List.nodup_range
  · simp only [if_pos hk]; simp
  · simp [ASet.empty]
  · simp

/-! ### removeAllMolecules -/

/-- Molecules of species `k` in system `S` go to the reservoir. -/
def drain (pl : ℕ → ℕ → Place) (S k : ℕ) : ℕ → ℕ → Place :=
  fun k' i => if k' = k ∧ pl k' i = .sys S then .pool else pl k' i

theorem Inv.congr {p : Pool} {pl pl' : ℕ → ℕ → Place} (h : Inv nSp cap p pl)
    (hp : ∀ k < nSp, ∀ i < cap k, pl' k i = pl k i) : Inv nSp cap p pl' := by
  refine ⟨h.num, h.caps, h.nodup, fun k hk i => ?_, h.good, fun S k hk i => ?_,
    fun k hk i hi S => ?_⟩
  · rw [h.res k hk i]
    exact ⟨fun hc => ⟨hc.1, by rw [hp k hk i hc.1]; exact hc.2⟩,
      fun hc => ⟨hc.1, by rw [← hp k hk i hc.1]; exact hc.2⟩⟩
  · rw [h.set S k hk i]
    exact ⟨fun hc => ⟨hc.1, by rw [hp k hk i hc.1]; exact hc.2⟩,
      fun hc => ⟨hc.1, by rw [← hp k hk i hc.1]; exact hc.2⟩⟩
  · rw [h.sys k hk i hi S, hp k hk i hi]

theorem dropSpecies_ok {p : Pool} {pl : ℕ → ℕ → Place} (h : Inv nSp cap p pl) {S k : ℕ}
    (hk : k < nSp) :
    ∃ p', dropSpecies S p k = ok p' ∧ Inv nSp cap p' (drain pl S k) ∧
      p'.res k = (p.set S k).elems ++ p.res k ∧ (∀ k', k' ≠ k → p'.res k' = p.res k') ∧
      (p'.set S k).elems = [] ∧ ∀ S' k', ¬ (S' = S ∧ k' = k) → p'.set S' k' = p.set S' k' := by
  set l := (p.set S k).elems with hl
  set n := l.length with hn
  obtain ⟨p', e, h1, h2, h3, h4, h5⟩ := loop_range_ok
    (P := fun j (q : Pool) => (q.set S k).elems = l.take (n - j) ∧
      q.res k = l.drop (n - j) ++ p.res k ∧ (∀ k', k' ≠ k → q.res k' = p.res k') ∧
      (∀ S' k', ¬ (S' = S ∧ k' = k) → q.set S' k' = p.set S' k') ∧
      Inv nSp cap q fun k' i => if k' = k ∧ i ∈ l.drop (n - j) then .pool else pl k' i)
    (fun q _ => dropLast S k q) n p
    ⟨by simp [hn, ← hl], by simp [hn], fun _ _ => rfl, fun _ _ _ => rfl, by simpa [hn] using h⟩
    (by
      rintro j hj q ⟨h1, h2, h3, h4, h5⟩
      have hlen : (q.set S k).elems.length = n - j := by rw [h1]; simp; omega
      have hlt : n - j - 1 < l.length := by omega
      set i := l[n - j - 1] with hi
      have hget : (q.set S k).elems.getD ((q.set S k).elems.length - 1) 0 = i := by
        rw [hlen, h1, List.getD_eq_getElem?_getD, List.getElem?_take_of_lt (by omega),
          List.getElem?_eq_getElem hlt]
        rfl
      have himem : i ∈ (q.set S k).elems := by
        rw [List.getD_eq_getElem?_getD, List.getElem?_eq_getElem (by omega)] at hget
        rw [← hget]
        exact List.getElem_mem _
      obtain ⟨hicap, hisys⟩ := (h5.set S k hk i).mp himem
      obtain ⟨q1, e1, i1, r1, l1, t1, o1⟩ := h5.remove hk hicap hisys
      obtain ⟨e2, i2⟩ := i1.ret hk hicap (move_self _ _ _ _)
      have hdrop : l.drop (n - (j + 1)) = i :: l.drop (n - j) := by
        rw [show n - (j + 1) = n - j - 1 by omega, List.drop_eq_getElem_cons hlt,
          show n - j - 1 + 1 = n - j by omega]
      refine ⟨q1.setRes k (i :: q1.res k), ?_, ?_, ?_, ?_, ?_, ?_⟩
      · unfold dropLast
        simp only []
        rw [hget, e1, ok_bind, e2]
      · rw [show (q1.setRes k (i :: q1.res k)).set = q1.set from rfl, t1 hget, hlen, h1,
          List.take_take]
        congr 1; omega
      · simp only [Pool.setRes, Function.update_self]
        rw [r1, h2, hdrop]; rfl
      · intro k' hk'
        simp only [Pool.setRes]
        rw [Function.update_of_ne hk', r1, h3 k' hk']
      · intro S' k' hc
        rw [show (q1.setRes k (i :: q1.res k)).set = q1.set from rfl, o1 S' k' hc, h4 S' k' hc]
      · refine i2.congr fun k' hk' i' hi' => ?_
        rw [hdrop]
        by_cases hc : k' = k ∧ i' = i
        · rw [hc.1, hc.2, move_self]; simp
        · rw [move_ne _ _ hc, move_ne _ _ hc]
          by_cases hkk : k' = k
          · have : i' ≠ i := fun hii => hc ⟨hkk, hii⟩
            simp [this]
          · simp [hkk])
  rw [Nat.sub_self] at h1 h2 h5
  refine ⟨p', e, ?_, by simpa using h2, h3, by simpa using h1, h4⟩
  refine h5.congr fun k' hk' i hi => ?_
  unfold drain
  rw [List.drop_zero]
  by_cases hkk : k' = k
  · subst hkk
    have := h.set S k' hk' i
    rw [← hl] at this
    by_cases hs : pl k' i = .sys S
    · rw [if_pos ⟨rfl, hs⟩, if_pos ⟨rfl, this.mpr ⟨hi, hs⟩⟩]
    · rw [if_neg (by simp [hs]), if_neg (by
        rintro ⟨-, hc⟩; exact hs (this.mp hc).2)]
  · rw [if_neg (by simp [hkk]), if_neg (by simp [hkk])]

theorem removeAll_ok {p : Pool} {pl : ℕ → ℕ → Place} (h : Inv nSp cap p pl) (S : ℕ) :
    ∃ p', McPool.removeAll S p = ok p' ∧
      Inv nSp cap p' (fun k i => if k < nSp ∧ pl k i = .sys S then .pool else pl k i) ∧
      (∀ k < nSp, p'.res k = (p.set S k).elems ++ p.res k ∧ (p'.set S k).elems = []) ∧
      ∀ S', S' ≠ S → ∀ k, p'.set S' k = p.set S' k := by
  obtain ⟨p', e, h1, h2, h3, h4⟩ := loop_range_ok
    (P := fun j (q : Pool) =>
      Inv nSp cap q (fun k i => if k < j ∧ pl k i = .sys S then .pool else pl k i) ∧
      (∀ k < j, q.res k = (p.set S k).elems ++ p.res k ∧ (q.set S k).elems = []) ∧
      (∀ k, j ≤ k → q.res k = p.res k ∧ q.set S k = p.set S k) ∧
      ∀ S', S' ≠ S → ∀ k, q.set S' k = p.set S' k)
    (dropSpecies S) p.nSp p
    ⟨by simpa using h, by simp, fun _ _ => ⟨rfl, rfl⟩, fun _ _ _ => rfl⟩
    (by
      rintro j hj q ⟨h1, h2, h3, h4⟩
      rw [h.num] at hj
      obtain ⟨q', e, i', r1, r2, s1, s2⟩ := dropSpecies_ok h1 (S := S) hj
      refine ⟨q', e, ?_, ?_, ?_, ?_⟩
      · refine i'.congr fun k hk i hi => ?_
        unfold drain
        by_cases hkj : k = j
        · subst hkj
          simp
        · have hiff : k < j + 1 ↔ k < j := by omega
          simp only [hkj, false_and, if_false, hiff]
      · intro k hk
        rcases Nat.lt_succ_iff_lt_or_eq.mp hk with hk | rfl
        · rw [r2 k (by omega), s2 S k (by omega)]
          exact h2 k hk
        · rw [r1, s1, (h3 k le_rfl).1, (h3 k le_rfl).2]
          exact ⟨rfl, rfl⟩
      · intro k hk
        rw [r2 k (by omega), s2 S k (by omega)]
        exact h3 k (by omega)
      · intro S' hS k
        rw [s2 S' k (fun hc => hS hc.1)]
        exact h4 S' hS k)
  rw [h.num] at h1 h2
  exact ⟨p', e, h1, h2, h4⟩

/-! ### Theorems -/

theorem Reach.inv {p : Pool} {pl : ℕ → ℕ → Place} (h : Reach nSp cap p pl) : Inv nSp cap p pl := by
  induction h with
  | init h => exact Inv.init h
  | get h e ih =>
    rename_i p p' pl k i
    have hk : k < nSp := by
      by_contra hc
      unfold getMol at e
      rw [require_false (by rw [ih.num]; exact hc), ub_bind] at e
      cases e
    rcases ih.get hk with ⟨-, he⟩ | ⟨i', l, -, he, -, -, hi⟩
    · rw [he] at e; cases e
    · rw [he] at e; cases e; exact hi
  | ret h hk hi hh e ih =>
    obtain ⟨e', h'⟩ := ih.ret hk hi hh
    rw [e'] at e; cases e; exact h'
  | add h hk hi hh e ih =>
    obtain ⟨p', e', h', -⟩ := ih.add hk hi hh
    rw [e'] at e; cases e; exact h'
  | remove h e ih =>
    rename_i p p' pl S k i
    have e0 := e
    unfold remMol at e0
    obtain ⟨_, -, e0⟩ := bind_eq_ok.mp e0
    obtain ⟨_, hsys, e0⟩ := bind_eq_ok.mp e0
    obtain ⟨_, hk, e0⟩ := bind_eq_ok.mp e0
    obtain ⟨s, hs, -⟩ := bind_eq_ok.mp e0
    unfold ASet.remove at hs
    obtain ⟨_, hi, -⟩ := bind_eq_ok.mp hs
    have hsys := check_eq_ok.mp hsys
    have hk : k < nSp := by rw [← ih.num]; by_contra hc; rw [require_false hc] at hk; cases hk
    have hi : i < cap k := by
      by_contra hc
      rw [ih.caps, require_false hc] at hi; cases hi
    obtain ⟨p1, e1, h1, -⟩ := ih.remove hk hi ((ih.sys k hk i hi S).mp hsys)
    rw [e1] at e; cases e; exact h1
  | removeAll h e ih =>
    rename_i p p' pl S
    obtain ⟨p1, e1, h1, -⟩ := removeAll_ok ih S
    rw [e1] at e; cases e; exact h1

/-- C34: in every state reached, each molecule is in exactly one place: its
reservoir contains it (once) iff it was never taken or was returned, system `S`
contains it (once) iff it was added to `S` last, and its pointer to a system
agrees.  Indices of molecules in a system are positions in it.  The counts add
up. -/
theorem C34_places {p : Pool} {pl : ℕ → ℕ → Place} (h : Reach nSp cap p pl) {k : ℕ} (hk : k < nSp) :
    (p.res k).Nodup ∧ (∀ i, i ∈ p.res k ↔ i < cap k ∧ pl k i = .pool) ∧
    (∀ S, (p.set S k).elems.Nodup ∧ (∀ i, i ∈ (p.set S k).elems ↔ i < cap k ∧ pl k i = .sys S) ∧
      (∀ i t, moleculeId p S k i = some t ↔ (p.set S k).elems[t]? = some i) ∧
      nMolecule p S k = ((Finset.range (cap k)).filter fun i => pl k i = .sys S).card) ∧
    (∀ i < cap k, ∀ S, p.sys k i = some S ↔ pl k i = .sys S) ∧
    (p.res k).length = ((Finset.range (cap k)).filter fun i => pl k i = .pool).card := by
  have hi := h.inv
  have hcard : ∀ (l : List ℕ) (x : Place), l.Nodup →
      (∀ i, i ∈ l ↔ i < cap k ∧ pl k i = x) →
      l.length = ((Finset.range (cap k)).filter fun i => pl k i = x).card := by
    intro l x hnd hl
    rw [← List.toFinset_card_of_nodup hnd]
    congr 1
    ext i
    simp [hl i]
  exact ⟨hi.nodup k hk, hi.res k hk, fun S => ⟨(hi.good S k hk).nodup, hi.set S k hk,
    (hi.good S k hk).tag, hcard _ _ (hi.good S k hk).nodup (hi.set S k hk)⟩,
    hi.sys k hk, hcard _ _ (hi.nodup k hk) (hi.res k hk)⟩

/-- Requests are granted or refused as they should: `getMolecule` succeeds iff
the reservoir is not empty, and throws otherwise; a molecule that the caller
holds can be added and returned; it can be removed from the system it is in, and
an attempt to remove it from another one throws; `removeAllMolecules` succeeds
and returns exactly the molecules of the system. -/
theorem C34_requests {p : Pool} {pl : ℕ → ℕ → Place} (h : Reach nSp cap p pl) {k : ℕ}
    (hk : k < nSp) :
    ((∃ i < cap k, pl k i = .pool) → ∃ p' i, getMol k p = ok (p', i) ∧ i < cap k ∧ pl k i = .pool) ∧
    ((∀ i < cap k, pl k i ≠ .pool) → getMol k p = throw) ∧
    (∀ i < cap k, pl k i = .hand → (∃ p', retMol k i p = ok p') ∧
      ∀ S, ∃ p', addMol S k i p = ok p') ∧
    (∀ i < cap k, ∀ S, pl k i = .sys S → (∃ p', remMol S k i p = ok p') ∧
      (∀ S', S' ≠ S → remMol S' k i p = throw) ∧ addMol S k i p = throw) ∧
    ∀ S, ∃ p', removeAll S p = ok p' := by
  have hi := h.inv
  refine ⟨?_, ?_, ?_, ?_, ?_⟩
  · rintro ⟨i, h1, h2⟩
    rcases hi.get hk with ⟨he, -⟩ | ⟨j, l, -, e, h3, h4, -⟩
    · have := (hi.res k hk i).mpr ⟨h1, h2⟩
      rw [he] at this; simp at this
    · exact ⟨_, j, e, h3, h4⟩
  · intro hall
    rcases hi.get hk with ⟨-, he⟩ | ⟨j, l, -, e, h3, h4, -⟩
    · exact he
    · exact absurd h4 (hall j h3)
  · intro i h1 h2
    refine ⟨⟨_, (hi.ret hk h1 h2).1⟩, fun S => ?_⟩
    obtain ⟨p', e, -⟩ := hi.add (S := S) hk h1 h2
    exact ⟨p', e⟩
  · intro i h1 S h2
    have hsys := (hi.sys k hk i h1 S).mpr h2
    refine ⟨?_, fun S' hS => ?_, ?_⟩
    · obtain ⟨p', e, -⟩ := hi.remove hk h1 h2
      exact ⟨p', e⟩
    · unfold remMol
      rw [require_true (by rw [hsys]; rfl), ok_bind, check_false (by
        rw [hsys]; intro hc; exact hS (Option.some.inj hc).symm), throw_bind]
    · unfold addMol
      rw [check_true (by rw [hi.num]; exact hk), ok_bind, hi.caps,
        ASet.append_mem (hi.good S k hk) h1 ((hi.set S k hk i).mpr ⟨h1, h2⟩), throw_bind]
  · intro S
    obtain ⟨p', e, -⟩ := removeAll_ok hi S
    exact ⟨p', e⟩

/-- Take `n` molecules of species `k` and add them to system `S` (as the
configuration readers do). -/
def addMany (S k : ℕ) : ℕ → Pool → Out Pool
  | 0, p => ok p
  | n + 1, p => do
    let (p, i) ← getMol k p
    let p ← addMol S k i p
    addMany S k n p

theorem addMany_ok {S k : ℕ} (hk : k < nSp) : ∀ (l l' : List ℕ) (p : Pool) (pl : ℕ → ℕ → Place),
    Inv nSp cap p pl → p.res k = l ++ l' →
    ∃ p' pl', addMany S k l.length p = ok p' ∧ Inv nSp cap p' pl' ∧ p'.res k = l' ∧
      (p'.set S k).elems = (p.set S k).elems ++ l := by
  intro l
  induction l with
  | nil => intro l' p pl h hr; exact ⟨p, pl, rfl, h, hr, by simp⟩
  | cons i l ih =>
    intro l' p pl h hr
    rcases h.get hk with ⟨he, -⟩ | ⟨j, l1, hj, e, h3, h4, h5⟩
    · rw [he] at hr; simp at hr
    · rw [hr, List.cons_append, List.cons.injEq] at hj
      obtain ⟨rfl, rfl⟩ := hj
      obtain ⟨p2, e2, h2, s2⟩ := h5.add (S := S) hk h3 (move_self _ _ _ _)
      have hres2 : p2.res k = l ++ l' := by
        have e2' := e2
        unfold addMol at e2'
        obtain ⟨_, -, e2'⟩ := bind_eq_ok.mp e2'
        obtain ⟨s, -, e2'⟩ := bind_eq_ok.mp e2'
        cases e2'
        simp [Pool.setSys, Pool.setSet, Pool.setRes]
      obtain ⟨p3, pl3, e3, i3, r3, s3⟩ := ih l' p2 _ h2 hres2
      refine ⟨p3, pl3, ?_, i3, r3, ?_⟩
      · simp only [List.length_cons, addMany]
        rw [e, ok_bind, e2, ok_bind, e3]
      · rw [s3, s2]
        simp [Pool.setRes]

/-- Reading a configuration again keeps the identity of molecules: if all
molecules of a system are removed and the same number of molecules of a species
is taken, they are the same molecules in the same order. -/
theorem C34_reread {p : Pool} {pl : ℕ → ℕ → Place} (h : Reach nSp cap p pl) {S k : ℕ}
    (hk : k < nSp) : ∃ p1 p2, removeAll S p = ok p1 ∧
      addMany S k (nMolecule p S k) p1 = ok p2 ∧ (p2.set S k).elems = (p.set S k).elems := by
  obtain ⟨p1, e1, i1, r1, -⟩ := removeAll_ok h.inv S
  obtain ⟨p2, pl2, e2, -, -, s2⟩ := addMany_ok (S := S) hk _ _ p1 _ i1 (r1 k hk).1
  refine ⟨p1, p2, e1, e2, ?_⟩
  rw [s2, (r1 k hk).2]
  rfl

/-- Initially molecules are taken in the order of their indices, and exactly as
many as the capacity. -/
theorem C34_order {S k : ℕ} (hk : k < nSp) : ∃ p0 p1, init nSp cap = ok p0 ∧
    addMany S k (cap k) p0 = ok p1 ∧ (p1.set S k).elems = List.range (cap k) ∧
    getMol k p1 = throw := by
  have h0 := Inv.init (init_ok nSp cap)
  obtain ⟨p1, pl1, e1, i1, r1, s1⟩ := addMany_ok (S := S) hk (List.range (cap k)) [] _ _ h0
    (by simp [hk])
  rw [List.length_range] at e1
  refine ⟨_, p1, init_ok nSp cap, e1, by simpa [ASet.empty] using s1, ?_⟩
  rcases i1.get hk with ⟨-, he⟩ | ⟨j, l1, hj, -⟩
  · exact he
  · rw [r1] at hj; cases hj

end

/-- A history that satisfies the rules: of two molecules one is added to system
0 and then moved to system 1; the other stays in the reservoir. -/
example : ∃ p pl, Reach 1 (fun _ => 2) p pl ∧ pl 0 0 = .sys 1 ∧ pl 0 1 = .pool :=
  ⟨_, _, .add (S := 1) (k := 0) (i := 0)
    (.remove (S := 0) (k := 0) (i := 0)
      (.add (S := 0) (k := 0) (i := 0)
        (.get (k := 0) (i := 0) (.init rfl) rfl) (by decide) (by decide) rfl rfl) rfl)
    (by decide) (by decide) rfl rfl, rfl, rfl⟩

/-! ### What is not refused -/

/-- `returnMolecule` accepts a molecule that is still in a system: it is then in
two places, and the next request for a molecule returns it. -/
theorem C34_return_in_system : ∃ p0 p1 p2 p3 p4,
    init 1 (fun _ => 2) = ok p0 ∧ getMol 0 p0 = ok (p1, 0) ∧ addMol 0 0 0 p1 = ok p2 ∧
    retMol 0 0 p2 = ok p3 ∧ 0 ∈ p3.res 0 ∧ 0 ∈ (p3.set 0 0).elems ∧ getMol 0 p3 = ok (p4, 0) :=
  ⟨_, _, _, _, _, rfl, rfl, rfl, rfl, by decide, by decide, rfl⟩

/-- `addMolecule` accepts a molecule that is in another system: it is then in
both, and can no longer be removed from the first one. -/
theorem C34_add_twice : ∃ p0 p1 p2 p3,
    init 1 (fun _ => 2) = ok p0 ∧ getMol 0 p0 = ok (p1, 0) ∧ addMol 0 0 0 p1 = ok p2 ∧
    addMol 1 0 0 p2 = ok p3 ∧ 0 ∈ (p3.set 0 0).elems ∧ 0 ∈ (p3.set 1 0).elems ∧
    remMol 0 0 0 p3 = throw ∧ removeAll 0 p3 = throw :=
  ⟨_, _, _, _, rfl, rfl, rfl, rfl, by decide, by decide, rfl, rfl⟩

/-! ### Generators -/

section
variable {nSp : ℕ} {cap : ℕ → ℕ}

/-- A generator that fails loses the molecule that it could not place: it is in
neither the system nor the reservoir, so that after all molecules of the system
have been removed the reservoir holds one molecule less than before. -/
theorem C34_generator_leak {p : Pool} {pl : ℕ → ℕ → Place} (h : Reach nSp cap p pl) {S k : ℕ}
    (hk : k < nSp) (hempty : ∀ S, (p.set S k).elems = []) (n : ℕ) (hn : n < (p.res k).length)
    (rest : List Bool) :
    ∃ p1 p2, generate S k (List.replicate n true ++ false :: rest) p = ok (p1, false) ∧
      nMolecule p1 S k = n ∧ removeAll S p1 = ok p2 ∧
      (p2.res k).length + 1 = (p.res k).length ∧ ∀ S, (p2.set S k).elems = [] := by
  have main : ∀ (n : ℕ) (q : Pool) (pl : ℕ → ℕ → Place), Inv nSp cap q pl →
      n < (q.res k).length →
      ∃ p1 pl1, generate S k (List.replicate n true ++ false :: rest) q = ok (p1, false) ∧
        Inv nSp cap p1 pl1 ∧ (p1.res k).length + n + 1 = (q.res k).length ∧
        (p1.set S k).elems.length = (q.set S k).elems.length + n ∧
        ∀ S', S' ≠ S → p1.set S' k = q.set S' k := by
    intro n
    induction n with
    | zero =>
      intro q pl hq hl
      rcases hq.get hk with ⟨he, -⟩ | ⟨i, l, hi, e, h3, h4, h5⟩
      · rw [he] at hl; simp at hl
      · obtain ⟨q2, e2, i2, s2⟩ := h5.add (S := S) hk h3 (move_self _ _ _ _)
        obtain ⟨q3, e3, i3, r3, l3, -, o3⟩ := i2.remove hk h3 (move_self _ _ _ _)
        have e2' := e2
        unfold addMol at e2'
        obtain ⟨_, -, e2'⟩ := bind_eq_ok.mp e2'
        obtain ⟨s, -, e2'⟩ := bind_eq_ok.mp e2'
        cases e2'
        refine ⟨q3, _, ?_, i3, ?_, ?_, ?_⟩
        · simp only [List.replicate_zero, List.nil_append, generate]
          rw [e, ok_bind, e2, ok_bind]
          simp only [Bool.false_eq_true, if_false]
          rw [e3, ok_bind]
        · rw [r3, hi]; simp [Pool.setSys, Pool.setSet, Pool.setRes]
        · have : ((((q.setRes k l).setSet S k s).setSys k i (some S)).set S k).elems.length =
              (q.set S k).elems.length + 1 := by rw [s2]; simp [Pool.setRes]
          omega
        · intro S' hS
          rw [o3 S' k (fun hc => hS hc.1)]
          rw [show (((q.setRes k l).setSet S k s).setSys k i (some S)).set =
            ((q.setRes k l).setSet S k s).set from rfl, setSet_at, if_neg (fun hc => hS hc.1)]
          rfl
    | succ n ih =>
      intro q pl hq hl
      rcases hq.get hk with ⟨he, -⟩ | ⟨i, l, hi, e, h3, h4, h5⟩
      · rw [he] at hl; simp at hl
      · obtain ⟨q2, e2, i2, s2⟩ := h5.add (S := S) hk h3 (move_self _ _ _ _)
        have e2' := e2
        unfold addMol at e2'
        obtain ⟨_, -, e2'⟩ := bind_eq_ok.mp e2'
        obtain ⟨s, -, e2'⟩ := bind_eq_ok.mp e2'
        cases e2'
        have hres : (((q.setRes k l).setSet S k s).setSys k i (some S)).res k = l := by
          simp [Pool.setSys, Pool.setSet, Pool.setRes]
        rw [hi, List.length_cons] at hl
        obtain ⟨p1, pl1, e1, i1, r1, l1, o1⟩ := ih _ _ i2 (by rw [hres]; omega)
        refine ⟨p1, pl1, ?_, i1, ?_, ?_, ?_⟩
        · simp only [List.replicate_succ, List.cons_append, generate]
          rw [e, ok_bind, e2, ok_bind]
          simp only [if_true]
          exact e1
        · rw [hres] at r1; rw [hi, List.length_cons]; omega
        · rw [l1, s2]; simp [Pool.setRes]; omega
        · intro S' hS
          rw [o1 S' hS]
          rw [show (((q.setRes k l).setSet S k s).setSys k i (some S)).set =
            ((q.setRes k l).setSet S k s).set from rfl, setSet_at, if_neg (fun hc => hS hc.1)]
          rfl
  obtain ⟨p1, pl1, e1, i1, r1, l1, o1⟩ := main n p pl h.inv hn
  obtain ⟨p2, e2, i2, r2, o2⟩ := removeAll_ok i1 S
  rw [hempty S] at l1
  simp only [List.length_nil, Nat.zero_add] at l1
  refine ⟨p1, p2, e1, l1, e2, ?_, fun S' => ?_⟩
  · rw [(r2 k hk).1, List.length_append, l1]; omega
  · by_cases hS : S' = S
    · subst hS; exact (r2 k hk).2
    · rw [o2 S' hS k, o1 S' hS]; exact hempty S'

end

example : ∃ p1 p2, (do
    let p ← init 1 (fun _ => 3)
    generate 0 0 [true, false] p) = ok (p1, false) ∧ removeAll 0 p1 = ok p2 ∧
    p2.res 0 = [0, 2] := ⟨_, _, rfl, rfl, rfl⟩

end Verif.McPool
