/-
Atoms added to the containers of species.
-/
import Verif.PpStore.Read

set_option autoImplicit false

namespace Verif.PpStore

open Verif.Cpp
open Verif.Cpp.Out

/-- Indices of species, molecule and atom within the bounds of the configuration. -/
def Conf.In (c : Conf) (a : Atom) : Prop :=
  0 ≤ a.sp ∧ a.sp < c.nSp ∧ 0 ≤ a.mol ∧ a.mol < (c.sp a.sp.toNat).cap ∧ 0 ≤ a.idx ∧
    a.idx < (c.sp a.sp.toNat).nAtom

/-- The species of a configuration know their index. -/
def Conf.Ids (c : Conf) : Prop := ∀ s, (c.sp s).id = s

/-- The species hold the first `n` atoms of the storage, each at the place given by its indices. -/
structure Conf.Holds (c c' : Conf) (n : ℕ) : Prop where
  atoms : c'.atoms = c.atoms
  nSp : c'.nSp = c.nSp
  shape : ∀ s, (c'.sp s).id = (c.sp s).id ∧ (c'.sp s).cap = (c.sp s).cap ∧
    (c'.sp s).nAtom = (c.sp s).nAtom
  ptrs : ∀ (s m a : ℕ), a < (c.sp s).nAtom → ∀ k, (c'.sp s).ptrs (m * (c.sp s).nAtom + a) = some k ↔
    k < n ∧ (c.atoms.mem k).ctx = ((s : ℤ), (m : ℤ), (a : ℤ))
  count : ∀ s m : ℕ, (c'.sp s).count m =
    ((Finset.range n).filter fun k => (c.atoms.mem k).sp = s ∧ (c.atoms.mem k).mol = m).card
  size : ∀ s m : ℕ, m < (c'.sp s).size ↔ ∃ k < n, (c.atoms.mem k).sp = s ∧ (m : ℤ) ≤ (c.atoms.mem k).mol

theorem place_inj {n m m' a a' : ℕ} (ha : a < n) (ha' : a' < n) (h : m * n + a = m' * n + a') :
    m = m' ∧ a = a' := by
  have h1 : (m * n + a) / n = m := by
    rw [Nat.mul_comm, Nat.mul_add_div (by omega), Nat.div_eq_of_lt ha, Nat.add_zero]
  have h2 : (m' * n + a') / n = m' := by
    rw [Nat.mul_comm, Nat.mul_add_div (by omega), Nat.div_eq_of_lt ha', Nat.add_zero]
  have : m = m' := by rw [← h1, ← h2, h]
  subst this
  exact ⟨rfl, by omega⟩

/-- `addAtom` of a species. -/
theorem addAtom_ok {p p' : Spec} {k : ℕ} {a : Atom} :
    p.addAtom k a = ok p' ↔ a.sp = p.id ∧ 0 ≤ a.mol ∧ a.mol < p.cap ∧ 0 ≤ a.idx ∧ a.idx < p.nAtom ∧
      p.ptrs (a.mol.toNat * p.nAtom + a.idx.toNat) = none ∧
      p' = { p with
        ptrs := Function.update p.ptrs (a.mol.toNat * p.nAtom + a.idx.toNat) (some k)
        size := if p.size ≤ a.mol.toNat then a.mol.toNat + 1 else p.size
        count := Function.update p.count a.mol.toNat (p.count a.mol.toNat + 1) } := by
  unfold Spec.addAtom
  simp only [bind_eq_ok, check_eq_ok]
  constructor
  · rintro ⟨_, h1, _, h2, _, h3, _, h4, _, h5, _, h6, h7⟩
    cases h7
    exact ⟨h1, h2, h3, h4, h5, h6, rfl⟩
  · rintro ⟨h1, h2, h3, h4, h5, h6, rfl⟩
    exact ⟨(), h1, (), h2, (), h3, (), h4, (), h5, (), h6, rfl⟩

theorem confAdd_ok {c c' : Conf} {k : ℕ} :
    c.addAtom k = ok c' ↔ 0 ≤ (c.atoms.mem k).sp ∧ (c.atoms.mem k).sp < c.nSp ∧
      ∃ p, (c.sp (c.atoms.mem k).sp.toNat).addAtom k (c.atoms.mem k) = ok p ∧
        c' = { c with sp := Function.update c.sp (c.atoms.mem k).sp.toNat p } := by
  unfold Conf.addAtom
  simp only [bind_eq_ok, check_eq_ok]
  constructor
  · rintro ⟨_, h1, _, h2, p, h3, h4⟩
    cases h4
    exact ⟨h1, h2, p, h3, rfl⟩
  · rintro ⟨h1, h2, p, h3, rfl⟩
    exact ⟨(), h1, (), h2, p, h3, rfl⟩

/-- One more atom. -/
theorem Conf.Holds.step {c c' : Conf} {n : ℕ} (hi : c.Ids) (h : c.Holds c' n)
    (hin : c.In (c.atoms.mem n)) (hd : ∀ k < n, (c.atoms.mem k).ctx ≠ (c.atoms.mem n).ctx) :
    ∃ c'', c'.addAtom n = ok c'' ∧ c.Holds c'' (n + 1) := by
  obtain ⟨i1, i2, i3, i4, i5, i6⟩ := hin
  set a := c.atoms.mem n with ha
  obtain ⟨s, hs⟩ := Int.eq_ofNat_of_zero_le i1
  obtain ⟨m, hm⟩ := Int.eq_ofNat_of_zero_le i3
  obtain ⟨x, hx⟩ := Int.eq_ofNat_of_zero_le i5
  have sn : a.sp.toNat = s := by omega
  have mn : a.mol.toNat = m := by omega
  have xn : a.idx.toNat = x := by omega
  rw [sn] at i4 i6
  have am : c'.atoms.mem n = a := by rw [h.atoms]
  obtain ⟨e1, e2, e3⟩ := h.shape s
  have hctx : a.ctx = ((s : ℤ), (m : ℤ), (x : ℤ)) := by unfold Atom.ctx; rw [hs, hm, hx]
  have hx' : x < (c.sp s).nAtom := by omega
  have free : (c'.sp s).ptrs (m * (c.sp s).nAtom + x) = none := by
    cases hp : (c'.sp s).ptrs (m * (c.sp s).nAtom + x) with
    | none => rfl
    | some k =>
      obtain ⟨g1, g2⟩ := (h.ptrs s m x hx' k).1 hp
      exact absurd (g2.trans hctx.symm) (hd k g1)
  refine ⟨_, confAdd_ok.2 ⟨by rw [am]; exact i1, by rw [am, h.nSp]; exact i2, _,
    addAtom_ok.2 ⟨?_, ?_, ?_, ?_, ?_, ?_, rfl⟩, rfl⟩, ?_⟩
  · rw [am, sn, e1, hi s]; exact hs
  · rw [am]; exact i3
  · rw [am, sn, e2]; exact i4
  · rw [am]; exact i5
  · rw [am, sn, e3]; exact i6
  · rw [am, sn, mn, xn, e3]; exact free
  · simp only [am, sn, mn, xn, e3]
    have hsp : ∀ t : ℕ, a.sp = t ↔ t = s := fun t => by omega
    have hmol : ∀ t : ℕ, a.mol = t ↔ t = m := fun t => by omega
    refine ⟨h.atoms, h.nSp, fun t => ?_, fun t m' x' hx'' k => ?_, fun t m' => ?_, fun t m' => ?_⟩
    · by_cases ht : t = s
      · subst ht; simp only [Function.update_self]; exact ⟨e1, e2, trivial⟩
      · dsimp only; rw [Function.update_of_ne ht]; exact h.shape t
    · by_cases ht : t = s
      · subst ht
        simp only [Function.update_self]
        by_cases hp : m' * (c.sp t).nAtom + x' = m * (c.sp t).nAtom + x
        · obtain ⟨rfl, rfl⟩ := place_inj hx'' hx' hp
          rw [Function.update_self]
          constructor
          · intro hk
            cases hk
            exact ⟨by omega, hctx⟩
          · rintro ⟨g1, g2⟩
            rcases Nat.lt_succ_iff_lt_or_eq.1 g1 with g1 | rfl
            · exact absurd (g2.trans hctx.symm) (hd k g1)
            · rfl
        · rw [Function.update_of_ne hp, h.ptrs t m' x' hx'']
          constructor
          · rintro ⟨g1, g2⟩; exact ⟨by omega, g2⟩
          · rintro ⟨g1, g2⟩
            rcases Nat.lt_succ_iff_lt_or_eq.1 g1 with g1 | rfl
            · exact ⟨g1, g2⟩
            · exfalso
              rw [← ha, hctx] at g2
              simp only [Prod.mk.injEq, Nat.cast_inj] at g2
              exact hp (by rw [g2.2.1, g2.2.2])
      · dsimp only
        rw [Function.update_of_ne ht, h.ptrs t m' x' hx'']
        constructor
        · rintro ⟨g1, g2⟩; exact ⟨by omega, g2⟩
        · rintro ⟨g1, g2⟩
          rcases Nat.lt_succ_iff_lt_or_eq.1 g1 with g1 | rfl
          · exact ⟨g1, g2⟩
          · exfalso
            rw [← ha, hctx] at g2
            simp only [Prod.mk.injEq, Nat.cast_inj] at g2
            exact ht g2.1.symm
    · rw [Finset.range_add_one, Finset.filter_insert, ← ha]
      have nm : n ∉ (Finset.range n).filter fun k => (c.atoms.mem k).sp = t ∧ (c.atoms.mem k).mol = m' := by
        simp
      by_cases ht : t = s
      · subst ht
        simp only [Function.update_self]
        by_cases hmm : m' = m
        · subst hmm
          rw [if_pos ⟨hs, hm⟩, Finset.card_insert_of_notMem nm, Function.update_self, h.count]
        · rw [if_neg fun y => hmm ((hmol _).1 y.2), Function.update_of_ne hmm, h.count]
      · dsimp only
        rw [if_neg (c := a.sp = t ∧ a.mol = m') fun y => ht ((hsp _).1 y.1), Function.update_of_ne ht, h.count]
    · have split : (∃ k < n + 1, (c.atoms.mem k).sp = t ∧ (m' : ℤ) ≤ (c.atoms.mem k).mol) ↔
          (∃ k < n, (c.atoms.mem k).sp = t ∧ (m' : ℤ) ≤ (c.atoms.mem k).mol) ∨ (t = s ∧ m' ≤ m) := by
        constructor
        · rintro ⟨k, hk, g⟩
          rcases Nat.lt_succ_iff_lt_or_eq.1 hk with hk | rfl
          · exact Or.inl ⟨k, hk, g⟩
          · rw [← ha] at g
            exact Or.inr ⟨(hsp t).1 g.1, by omega⟩
        · rintro (⟨k, hk, g⟩ | ⟨g1, g2⟩)
          · exact ⟨k, by omega, g⟩
          · exact ⟨n, by omega, (hsp t).2 g1, by rw [← ha]; omega⟩
      rw [split, ← h.size]
      by_cases ht : t = s
      · subst ht
        simp only [Function.update_self]
        split_ifs with hc
        · constructor
          · intro; right; exact ⟨trivial, by omega⟩
          · rintro (g | ⟨-, g⟩) <;> omega
        · constructor
          · intro g; exact Or.inl g
          · rintro (g | ⟨-, g⟩) <;> omega
      · dsimp only
        rw [Function.update_of_ne ht]
        constructor
        · intro g; exact Or.inl g
        · rintro (g | ⟨g, -⟩)
          · exact g
          · exact absurd g ht

/-- What a pass of the loop requires. -/
theorem Conf.Holds.need {c c' c'' : Conf} {n : ℕ} (h : c.Holds c' n) (hok : c'.addAtom n = ok c'') :
    c.In (c.atoms.mem n) ∧ ∀ k < n, (c.atoms.mem k).ctx ≠ (c.atoms.mem n).ctx := by
  obtain ⟨g1, g2, p, g3, -⟩ := confAdd_ok.1 hok
  rw [h.atoms] at g1 g2 g3
  rw [h.nSp] at g2
  obtain ⟨f1, f2, f3, f4, f5, f6, -⟩ := addAtom_ok.1 g3
  set a := c.atoms.mem n with ha
  obtain ⟨e1, e2, e3⟩ := h.shape a.sp.toNat
  rw [e2] at f3
  rw [e3] at f5 f6
  refine ⟨⟨g1, g2, f2, f3, f4, f5⟩, fun k hk hc => ?_⟩
  have : (c'.sp a.sp.toNat).ptrs (a.mol.toNat * (c.sp a.sp.toNat).nAtom + a.idx.toNat) = some k := by
    rw [h.ptrs _ _ _ (by omega)]
    refine ⟨hk, hc.trans ?_⟩
    unfold Atom.ctx
    rw [Int.toNat_of_nonneg g1, Int.toNat_of_nonneg f2, Int.toNat_of_nonneg f4]
  rw [this] at f6
  exact absurd f6 (by simp)

/-- **C77 (molecules).** Adding the atoms of the storage to the species succeeds exactly if the
indices of every atom are within bounds and no two atoms have the same; then every place in a molecule
holds the atom with these indices, molecules know how many atoms they have, and the number of molecules
is one more than the largest index of a molecule. -/
theorem C77_add {c : Conf} (hi : c.Ids) (hs : 0 < c.nSp) :
    ((∃ c', c.addAtomsToSpecies = ok c') ↔
      (∀ k < c.atoms.size, c.In (c.atoms.mem k)) ∧
      ∀ k k', k < k' → k' < c.atoms.size → (c.atoms.mem k).ctx ≠ (c.atoms.mem k').ctx) ∧
    ∀ c', c.addAtomsToSpecies = ok c' → c.Holds c' c.atoms.size := by
  have h0 : c.Holds { c with sp := fun s => (c.sp s).clear } 0 :=
    ⟨rfl, rfl, fun s => ⟨rfl, rfl, rfl⟩, fun s m a _ k => by simp [Spec.clear],
      fun s m => by simp [Spec.clear], fun s m => by simp [Spec.clear]⟩
  have key := loop_range_iff (fun i c' => c.Holds c' i)
    (fun k => c.In (c.atoms.mem k) ∧ ∀ k' < k, (c.atoms.mem k').ctx ≠ (c.atoms.mem k).ctx)
    Conf.addAtom c.atoms.size _ h0
    (fun i _ c' h q => h.step hi q.1 q.2) (fun i _ c' h c'' hok => h.need hok)
  have e : c.addAtomsToSpecies =
      loop Conf.addAtom (List.range c.atoms.size) { c with sp := fun s => (c.sp s).clear } := by
    unfold Conf.addAtomsToSpecies
    rw [check_true hs, ok_bind]
  rw [e]
  refine ⟨key.1.trans ⟨fun h => ⟨fun k hk => (h k hk).1, fun k k' a b => (h k' b).2 k a⟩, fun h k hk =>
    ⟨h.1 k hk, fun k' a => h.2 k' k a hk⟩⟩, key.2⟩

/-! ### Validity -/

/-- A molecule of which all atoms are present. -/
def Conf.Complete (c : Conf) (s m : ℕ) : Prop :=
  ∀ a < (c.sp s).nAtom, ∃ k < c.atoms.size, (c.atoms.mem k).ctx = ((s : ℤ), (m : ℤ), (a : ℤ))

/-- A molecule of which no atom is present. -/
def Conf.Empty (c : Conf) (s m : ℕ) : Prop :=
  ∀ k < c.atoms.size, ¬ ((c.atoms.mem k).sp = s ∧ (c.atoms.mem k).mol = m)

theorem count_complete {c : Conf} (hin : ∀ k < c.atoms.size, c.In (c.atoms.mem k))
    (hd : ∀ k k', k < k' → k' < c.atoms.size → (c.atoms.mem k).ctx ≠ (c.atoms.mem k').ctx) {s m : ℕ}
    (h : c.Complete s m) :
    ((Finset.range c.atoms.size).filter fun k =>
      (c.atoms.mem k).sp = s ∧ (c.atoms.mem k).mol = m).card = (c.sp s).nAtom := by
  have inj : ∀ k k', k < c.atoms.size → k' < c.atoms.size →
      (c.atoms.mem k).ctx = (c.atoms.mem k').ctx → k = k' := by
    intro k k' a b e
    rcases lt_trichotomy k k' with x | x | x
    · exact absurd e (hd k k' x b)
    · exact x
    · exact absurd e.symm (hd k' k x a)
  conv_rhs => rw [← Finset.card_range (c.sp s).nAtom]
  refine Finset.card_bij (fun k _ => (c.atoms.mem k).idx.toNat) ?_ ?_ ?_
  · intro k hk
    obtain ⟨h1, h2, h3⟩ := by simpa using hk
    obtain ⟨i1, i2, i3, i4, i5, i6⟩ := hin k h1
    rw [h2, Int.toNat_natCast] at i6
    exact Finset.mem_range.2 (by omega)
  · intro k hk k' hk' e
    obtain ⟨h1, h2, h3⟩ := by simpa using hk
    obtain ⟨h1', h2', h3'⟩ := by simpa using hk'
    obtain ⟨i1, i2, i3, i4, i5, i6⟩ := hin k h1
    obtain ⟨i1', i2', i3', i4', i5', i6'⟩ := hin k' h1'
    refine inj k k' h1 h1' ?_
    unfold Atom.ctx
    rw [h2, h2', h3, h3', show (c.atoms.mem k).idx = (c.atoms.mem k').idx by omega]
  · intro a ha
    obtain ⟨k, hk, e⟩ := h a (Finset.mem_range.1 ha)
    simp only [Atom.ctx, Prod.mk.injEq] at e
    exact ⟨k, by simpa using ⟨hk, e.1, e.2.1⟩, by rw [e.2.2]; simp⟩

theorem count_empty {c : Conf} {s m : ℕ} : c.Empty s m ↔
    ((Finset.range c.atoms.size).filter fun k =>
      (c.atoms.mem k).sp = s ∧ (c.atoms.mem k).mol = m).card = 0 := by
  rw [Finset.card_eq_zero, Finset.filter_eq_empty_iff]
  simp only [Finset.mem_range]
  exact Iff.rfl

/-- **C77 (validity).** After atoms have been added, `isValid` of a species succeeds exactly if every
molecule up to the one with the largest index is complete or empty. -/
theorem C77_valid {c c' : Conf} (hi : c.Ids) (hs : 0 < c.nSp) (h : c.addAtomsToSpecies = ok c') {s : ℕ}
    (hc : 0 < (c.sp s).cap) (hn : 0 < (c.sp s).nAtom) :
    (c'.sp s).isValid c'.atoms.mem = ok () ↔
      ∀ m k : ℕ, k < c.atoms.size → (c.atoms.mem k).sp = s → (m : ℤ) ≤ (c.atoms.mem k).mol →
        c.Complete s m ∨ c.Empty s m := by
  obtain ⟨h1, h2⟩ := C77_add hi hs
  obtain ⟨hin, hd⟩ := h1.1 ⟨c', h⟩
  have H := h2 c' h
  obtain ⟨e1, e2, e3⟩ := H.shape s
  have mol : ∀ m, (c'.sp s).validMol c'.atoms.mem m = ok () ↔ c.Complete s m ∨ c.Empty s m := by
    intro m
    unfold Spec.validMol
    rw [H.count, e3, H.atoms]
    by_cases g1 : c.Complete s m
    · rw [if_pos (count_complete hin hd g1), loop_unit_ok]
      refine ⟨fun _ => Or.inl g1, fun _ a ha => ?_⟩
      obtain ⟨k, hk, e⟩ := g1 a (List.mem_range.1 ha)
      rw [(H.ptrs s m a (List.mem_range.1 ha) k).2 ⟨hk, e⟩]
      simp only [Atom.ctx, Prod.mk.injEq] at e
      simp only [e, e1, hi s, check_true, ok_bind]
    · by_cases g2 : c.Empty s m
      · rw [if_neg (by rw [count_empty.1 g2]; omega), if_pos (count_empty.1 g2), loop_unit_ok]
        refine ⟨fun _ => Or.inr g2, fun _ a ha => ?_⟩
        rw [check_eq_ok]
        cases hp : (c'.sp s).ptrs (m * (c.sp s).nAtom + a) with
        | none => rfl
        | some k =>
          obtain ⟨q1, q2⟩ := (H.ptrs s m a (List.mem_range.1 ha) k).1 hp
          simp only [Atom.ctx, Prod.mk.injEq] at q2
          exact absurd ⟨q2.1, q2.2.1⟩ (g2 k q1)
      · rw [iff_false_right (by tauto)]
        split_ifs with f1 f2
        · rw [loop_unit_ok]
          intro hall
          refine g1 fun a ha => ?_
          have := hall a (List.mem_range.2 ha)
          cases hp : (c'.sp s).ptrs (m * (c.sp s).nAtom + a) with
          | none => rw [hp] at this; exact absurd this (by simp)
          | some k => exact ⟨k, (H.ptrs s m a ha k).1 hp⟩
        · exact absurd (count_empty.2 f2) g2
        · simp
  unfold Spec.isValid
  rw [check_true (by rw [e2]; exact hc), ok_bind, loop_unit_ok]
  constructor
  · intro hall m k hk a b
    exact (mol m).1 (hall m (List.mem_range.2 ((H.size s m).2 ⟨k, hk, a, b⟩)))
  · intro hall m hm
    obtain ⟨k, hk, a, b⟩ := (H.size s m).1 (List.mem_range.1 hm)
    exact (mol m).2 (hall m k hk a b)

end Verif.PpStore
