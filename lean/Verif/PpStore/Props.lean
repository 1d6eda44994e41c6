/-
Properties C77: atoms of ordered files, groups, and repeated reading.
-/
import Verif.PpStore.Add

set_option autoImplicit false

namespace Verif.PpStore

open Verif.Cpp
open Verif.Cpp.Out

/-- Index of an atom in a file ordered by species, molecule and atom. -/
def Conf.rank (c : Conf) (s m a : ℕ) : ℕ := c.offset s + m * (c.sp s).nAtom + a

theorem offset_succ (c : Conf) (s : ℕ) : c.offset (s + 1) = c.offset s + (c.sp s).cap * (c.sp s).nAtom := by
  unfold Conf.offset
  rw [Finset.sum_range_succ, Nat.mul_comm (c.sp s).cap]

theorem offset_mono (c : Conf) {s t : ℕ} (h : s ≤ t) : c.offset s ≤ c.offset t :=
  monotone_nat_of_le_succ (fun n => by rw [offset_succ]; omega) h

theorem inner_lt {n cap m a : ℕ} (hm : m < cap) (ha : a < n) : m * n + a < cap * n := by
  have : (m + 1) * n ≤ cap * n := Nat.mul_le_mul_right n hm
  rw [Nat.add_mul] at this
  omega

/-- Indices of species, molecule and atom within bounds. -/
def Conf.At (c : Conf) (s m a : ℕ) : Prop := s < c.nSp ∧ m < (c.sp s).cap ∧ a < (c.sp s).nAtom

theorem rank_lt_next {c : Conf} {s m a : ℕ} (h : c.At s m a) : c.rank s m a < c.offset (s + 1) := by
  have := inner_lt h.2.1 h.2.2
  rw [offset_succ]
  unfold Conf.rank
  omega

theorem rank_lt {c : Conf} {s m a : ℕ} (h : c.At s m a) : c.rank s m a < c.offset c.nSp :=
  lt_of_lt_of_le (rank_lt_next h) (offset_mono c h.1)

theorem rank_inj {c : Conf} {s m a s' m' a' : ℕ} (h : c.At s m a) (h' : c.At s' m' a')
    (e : c.rank s m a = c.rank s' m' a') : s = s' ∧ m = m' ∧ a = a' := by
  have hs : s = s' := by
    rcases lt_trichotomy s s' with x | x | x
    · have h1 := rank_lt_next h
      have h2 := offset_mono c (show s + 1 ≤ s' from x)
      have : c.offset s' ≤ c.rank s' m' a' := by unfold Conf.rank; omega
      omega
    · exact x
    · have h1 := rank_lt_next h'
      have h2 := offset_mono c (show s' + 1 ≤ s from x)
      have : c.offset s ≤ c.rank s m a := by unfold Conf.rank; omega
      omega
  subst hs
  unfold Conf.rank at e
  obtain ⟨h1, h2⟩ := place_inj h.2.2 h'.2.2 (show m * (c.sp s).nAtom + a = m' * (c.sp s).nAtom + a' by omega)
  exact ⟨rfl, h1, h2⟩

theorem rank_surj {c : Conf} {j : ℕ} (h : j < c.offset c.nSp) : ∃ s m a, c.At s m a ∧ c.rank s m a = j := by
  have key : ∀ t, j < c.offset t → ∃ s < t, ∃ m < (c.sp s).cap, ∃ a < (c.sp s).nAtom,
      c.rank s m a = j := by
    intro t
    induction t with
    | zero => intro h; simp [Conf.offset] at h
    | succ t ih =>
      intro h
      by_cases hj : j < c.offset t
      · obtain ⟨s, hs, r⟩ := ih hj
        exact ⟨s, by omega, r⟩
      · rw [offset_succ] at h
        have hlt : j - c.offset t < (c.sp t).cap * (c.sp t).nAtom := by omega
        have hn : 0 < (c.sp t).nAtom := Nat.pos_of_ne_zero fun h0 => by rw [h0] at hlt; omega
        refine ⟨t, by omega, (j - c.offset t) / (c.sp t).nAtom,
          (Nat.div_lt_iff_lt_mul hn).2 hlt, (j - c.offset t) % (c.sp t).nAtom, Nat.mod_lt _ hn, ?_⟩
        have := Nat.div_add_mod (j - c.offset t) (c.sp t).nAtom
        rw [Nat.mul_comm] at this
        unfold Conf.rank
        omega
  obtain ⟨s, hs, m, hm, a, ha, e⟩ := key _ h
  exact ⟨s, m, a, ⟨hs, hm, ha⟩, e⟩

/-- A storage in which the atoms have the indices from 0 to their number, in any order. -/
structure Store.Full (s : Store) : Prop where
  cap : s.size ≤ s.cap
  range : ∀ k < s.size, 0 ≤ (s.mem k).id ∧ (s.mem k).id < s.size
  ptrs : ∀ j k, s.ptrs j = some k ↔ k < s.size ∧ (s.mem k).id = j

theorem Store.Full.inj {s : Store} (h : s.Full) {k k' : ℕ} (hk : k < s.size) (hk' : k' < s.size)
    (e : (s.mem k).id = (s.mem k').id) : k = k' := by
  have h1 := (h.ptrs (s.mem k).id.toNat k).2 ⟨hk, by have := h.range k hk; omega⟩
  have h2 := (h.ptrs (s.mem k).id.toNat k').2 ⟨hk', by have := h.range k hk; omega⟩
  rw [h1] at h2
  cases h2
  rfl

theorem Store.Full.all {s : Store} (h : s.Full) {j : ℕ} (hj : j < s.size) : ∃ k, s.ptrs j = some k := by
  have him : (Finset.range s.size).image (fun k => (s.mem k).id.toNat) = Finset.range s.size := by
    refine Finset.eq_of_subset_of_card_le ?_ ?_
    · intro x hx
      obtain ⟨k, hk, rfl⟩ := Finset.mem_image.1 hx
      have := h.range k (Finset.mem_range.1 hk)
      exact Finset.mem_range.2 (by omega)
    · rw [Finset.card_image_of_injOn]
      intro k hk k' hk' e
      have a := h.range k (Finset.mem_range.1 hk)
      have b := h.range k' (Finset.mem_range.1 hk')
      exact h.inj (Finset.mem_range.1 hk) (Finset.mem_range.1 hk') (by dsimp only at e; omega)
  have := Finset.mem_range.2 hj
  rw [← him] at this
  obtain ⟨k, hk, e⟩ := Finset.mem_image.1 this
  have := h.range k (Finset.mem_range.1 hk)
  exact ⟨k, (h.ptrs j k).2 ⟨Finset.mem_range.1 hk, by omega⟩⟩

/-- After the atoms with indices below `n` have been given their indices in molecules. -/
structure Given (c : Conf) (n : ℕ) (x : Store × ℕ) : Prop where
  cur : x.2 = n
  cap : x.1.cap = c.atoms.cap
  size : x.1.size = c.atoms.size
  ptrs : x.1.ptrs = c.atoms.ptrs
  new : x.1.new = c.atoms.new
  id : ∀ k, (x.1.mem k).id = (c.atoms.mem k).id
  ctx : ∀ s m a, c.At s m a → c.rank s m a < n → ∀ k, c.atoms.ptrs (c.rank s m a) = some k →
    (x.1.mem k).ctx = ((s : ℤ), (m : ℤ), (a : ℤ))

theorem Given.step {c : Conf} (hf : c.atoms.Full) (hn : c.atoms.size = c.offset c.nSp) {s m a : ℕ}
    (hat : c.At s m a) {x : Store × ℕ} (h : Given c (c.rank s m a) x) :
    ∃ x', setContext s m x a = ok x' ∧ Given c (c.rank s m a + 1) x' := by
  obtain ⟨k, hk⟩ := hf.all (j := c.rank s m a) (by rw [hn]; exact rank_lt hat)
  have hlt := rank_lt hat
  have hc := hf.cap
  refine ⟨(x.1.set k ⟨(x.1.mem k).id, s, m, a⟩, x.2 + 1), ?_, ?_, h.cap, h.size, h.ptrs, h.new,
    fun k' => ?_, fun s' m' a' hat' hr k' hk' => ?_⟩
  · unfold setContext
    rw [require_true (by rw [h.cur, h.cap]; omega), ok_bind, h.cur, h.ptrs, hk]
  · dsimp only
    rw [h.cur]
  · unfold Store.set
    by_cases e : k' = k
    · subst e; simp only [Function.update_self]; exact h.id k'
    · dsimp only
      rw [Function.update_of_ne e]; exact h.id k'
  · unfold Store.set
    dsimp only
    rcases Nat.lt_succ_iff_lt_or_eq.1 hr with hr | hr
    · have e : k' ≠ k := by
        rintro rfl
        have h1 := ((hf.ptrs _ _).1 hk).2
        have h2 := ((hf.ptrs _ _).1 hk').2
        omega
      rw [Function.update_of_ne e]
      exact h.ctx s' m' a' hat' hr k' hk'
    · obtain ⟨rfl, rfl, rfl⟩ := rank_inj hat' hat hr
      rw [hk] at hk'
      cases hk'
      rw [Function.update_self]
      rfl

theorem setAtomContexts_ok {c : Conf} (hf : c.atoms.Full) (hs : 0 < c.nSp)
    (hn : c.atoms.size = c.offset c.nSp) :
    ∃ x : Store × ℕ, c.setAtomContexts = ok { c with atoms := x.1 } ∧ Given c (c.offset c.nSp) x := by
  have h0 : Given c (c.offset 0) (c.atoms, 0) :=
    ⟨by simp [Conf.offset], rfl, rfl, rfl, rfl, fun _ => rfl, fun s m a _ h => by
      simp [Conf.offset] at h⟩
  obtain ⟨x, hx, g⟩ := loop_range_ok (fun t x => Given c (c.offset t) x)
    (fun x s => loop (fun x m => loop (setContext s m) (List.range (c.sp s).nAtom) x)
      (List.range (c.sp s).cap) x) c.nSp (c.atoms, 0) h0 (by
    intro s hs x hx
    obtain ⟨y, hy, g⟩ := loop_range_ok (fun m x => Given c (c.offset s + m * (c.sp s).nAtom) x)
      (fun x m => loop (setContext s m) (List.range (c.sp s).nAtom) x) (c.sp s).cap x
      (by rw [Nat.zero_mul, Nat.add_zero]; exact hx) (by
      intro m hm x hx
      obtain ⟨y, hy, g⟩ := loop_range_ok (fun a x => Given c (c.offset s + m * (c.sp s).nAtom + a) x)
        (setContext s m) (c.sp s).nAtom x hx (fun a ha x hx => hx.step hf hn ⟨hs, hm, ha⟩)
      refine ⟨y, hy, ?_⟩
      rw [Nat.add_mul, Nat.one_mul, ← Nat.add_assoc]
      exact g)
    refine ⟨y, hy, ?_⟩
    rw [offset_succ]
    exact g)
  refine ⟨x, ?_, g⟩
  unfold Conf.setAtomContexts
  rw [check_true hs, ok_bind, check_true hn, ok_bind, hx, ok_bind]

/-- **C77 (ordered files).** If the number of atoms is that of the species, and the atoms have the
indices from 0 on, in any order, then every atom gets its place: atom `a` of molecule `m` of species
`s` is the one with index `offset s + m * nAtom + a`, and all species are valid. -/
theorem C77_ordered {c : Conf} (hf : c.atoms.Full) (hi : c.Ids) (hs : 0 < c.nSp)
    (hn : c.atoms.size = c.offset c.nSp) (hpos : ∀ s < c.nSp, 0 < (c.sp s).cap ∧ 0 < (c.sp s).nAtom) :
    ∃ c1 c2, c.setAtomContexts = ok c1 ∧ c1.addAtomsToSpecies = ok c2 ∧
      (∀ k, (c2.atoms.mem k).id = (c.atoms.mem k).id) ∧
      (∀ s m a, c.At s m a → ∃ k < c.atoms.size, (c.atoms.mem k).id = c.rank s m a ∧
        (c2.atoms.mem k).ctx = ((s : ℤ), (m : ℤ), (a : ℤ)) ∧
        (c2.sp s).ptrs (m * (c.sp s).nAtom + a) = some k) ∧
      ∀ s < c.nSp, (c2.sp s).isValid c2.atoms.mem = ok () := by
  obtain ⟨x, hx, g⟩ := setAtomContexts_ok hf hs hn
  set c1 : Conf := { c with atoms := x.1 } with hc1
  have loc : ∀ k < c1.atoms.size, ∃ s m a, c.At s m a ∧ (c.atoms.mem k).id = c.rank s m a ∧
      (c1.atoms.mem k).ctx = ((s : ℤ), (m : ℤ), (a : ℤ)) := by
    intro k hk
    rw [show c1.atoms.size = c.atoms.size from g.size] at hk
    have hr := hf.range k hk
    obtain ⟨s, m, a, hat, e⟩ := rank_surj (c := c) (j := (c.atoms.mem k).id.toNat) (by rw [← hn]; omega)
    have he : (c.atoms.mem k).id = c.rank s m a := by omega
    exact ⟨s, m, a, hat, he, g.ctx s m a hat (rank_lt hat) k ((hf.ptrs _ _).2 ⟨hk, he⟩)⟩
  have hin : ∀ k < c1.atoms.size, c1.In (c1.atoms.mem k) := by
    intro k hk
    obtain ⟨s, m, a, hat, -, e⟩ := loc k hk
    simp only [Atom.ctx, Prod.mk.injEq] at e
    obtain ⟨e1, e2, e3⟩ := e
    obtain ⟨a1, a2, a3⟩ := hat
    unfold Conf.In
    rw [e1, e2, e3, Int.toNat_natCast]
    have b2 : m < (c1.sp s).cap := a2
    have b3 : a < (c1.sp s).nAtom := a3
    have b1 : s < c1.nSp := a1
    omega
  have hd : ∀ k k', k < k' → k' < c1.atoms.size → (c1.atoms.mem k).ctx ≠ (c1.atoms.mem k').ctx := by
    intro k k' hlt hk' e
    obtain ⟨s, m, a, -, i1, e1⟩ := loc k (by omega)
    obtain ⟨s', m', a', -, i2, e2⟩ := loc k' hk'
    rw [e1, e2] at e
    simp only [Prod.mk.injEq, Nat.cast_inj] at e
    obtain ⟨rfl, rfl, rfl⟩ := e
    rw [show c1.atoms.size = c.atoms.size from g.size] at hk'
    have := hf.inj (by omega) hk' (i1.trans i2.symm)
    omega
  have hi1 : c1.Ids := hi
  obtain ⟨h1, h2⟩ := C77_add hi1 hs
  obtain ⟨c2, hc2⟩ := h1.2 ⟨hin, hd⟩
  have H := h2 c2 hc2
  have found : ∀ s m a, c.At s m a → ∃ k < c.atoms.size, (c.atoms.mem k).id = c.rank s m a ∧
      (c1.atoms.mem k).ctx = ((s : ℤ), (m : ℤ), (a : ℤ)) := by
    intro s m a hat
    obtain ⟨k, hk⟩ := hf.all (j := c.rank s m a) (by rw [hn]; exact rank_lt hat)
    obtain ⟨k1, k2⟩ := (hf.ptrs _ _).1 hk
    exact ⟨k, k1, k2, g.ctx s m a hat (rank_lt hat) k hk⟩
  refine ⟨c1, c2, hx, hc2, fun k => by rw [H.atoms]; exact g.id k, fun s m a hat => ?_, fun s hs' => ?_⟩
  · obtain ⟨k, k1, k2, k3⟩ := found s m a hat
    have hk : k < c1.atoms.size := by rw [show c1.atoms.size = c.atoms.size from g.size]; exact k1
    exact ⟨k, k1, k2, by rw [H.atoms]; exact k3, (H.ptrs s m a hat.2.2 k).2 ⟨hk, k3⟩⟩
  · rw [C77_valid hi1 hs hc2 (hpos s hs').1 (hpos s hs').2]
    intro m k hk e1 e2
    left
    intro a ha
    obtain ⟨i1, i2, i3, i4, -, -⟩ := hin k hk
    rw [e1, Int.toNat_natCast] at i4
    obtain ⟨k', q1, -, q2⟩ := found s m a ⟨hs', by
      have : (c1.sp s).cap = (c.sp s).cap := rfl
      omega, ha⟩
    exact ⟨k', by rw [show c1.atoms.size = c.atoms.size from g.size]; exact q1, q2⟩

/-! ### Groups -/

/-- Groups numbered in order. -/
def numbered (l : List (ℤ × List ℕ)) : List Group := l.zipIdx.map fun g => ⟨g.2, g.1.1, g.1.2⟩

theorem numbered_snoc (l : List (ℤ × List ℕ)) (g : ℤ × List ℕ) :
    numbered (l ++ [g]) = numbered l ++ [⟨l.length, g.1, g.2⟩] := by
  unfold numbered
  rw [List.zipIdx_append, List.map_append]
  simp

theorem numbered_length (l : List (ℤ × List ℕ)) : (numbered l).length = l.length := by
  unfold numbered; simp

/-- The groups of one molecule whose first atom has index `first`. -/
def ofMolecule (ts : List Template) (first : ℕ) : List (ℤ × List ℕ) :=
  ts.map fun t => (t.typ, t.atoms.map (first + ·))

theorem templates_loop (cap first : ℕ) (ts : List Template) : ∀ L : List (ℤ × List ℕ),
    L.length + ts.length ≤ cap →
    loop (fun (y : List Group × ℕ × ℕ) (t : Template) => do
      require (y.1.length < cap)
      ok (y.1 ++ [⟨y.2.2, t.typ, t.atoms.map (y.2.1 + ·)⟩], y.2.1, y.2.2 + 1)) ts
        (numbered L, first, L.length) =
      ok (numbered (L ++ ofMolecule ts first), first, (L ++ ofMolecule ts first).length) := by
  induction ts with
  | nil => intro L _; simp [ofMolecule]
  | cons t ts ih =>
    intro L hL
    rw [List.length_cons] at hL
    rw [loop_cons]
    dsimp only
    rw [require_true (by rw [numbered_length]; omega), ok_bind, ok_bind]
    have := ih (L ++ [(t.typ, t.atoms.map (first + ·))]) (by rw [List.length_append]; simp; omega)
    rw [numbered_snoc, List.length_append, List.length_singleton] at this
    rw [this]
    simp [ofMolecule]

theorem species_loop (cap first nMol nAtom : ℕ) (ts : List Template) (L : List (ℤ × List ℕ))
    (hL : L.length + nMol * ts.length ≤ cap) :
    makeSpeciesGroups cap ts nMol nAtom (numbered L, first, L.length) =
      ok (numbered (L ++ (List.range nMol).flatMap fun m => ofMolecule ts (first + m * nAtom)),
        first + nMol * nAtom,
        (L ++ (List.range nMol).flatMap fun m => ofMolecule ts (first + m * nAtom)).length) := by
  have len : ∀ i, ((List.range i).flatMap fun m => ofMolecule ts (first + m * nAtom)).length =
      i * ts.length := by
    intro i
    induction i with
    | zero => simp
    | succ i ih =>
      rw [List.range_succ, List.flatMap_append, List.length_append, ih, Nat.add_mul]
      simp [ofMolecule]
  obtain ⟨x, hx, e⟩ := loop_range_ok (fun i (x : List Group × ℕ × ℕ) =>
      x = (numbered (L ++ (List.range i).flatMap fun m => ofMolecule ts (first + m * nAtom)),
        first + i * nAtom,
        (L ++ (List.range i).flatMap fun m => ofMolecule ts (first + m * nAtom)).length))
    (fun x (_ : ℕ) => do
      let y ← loop (fun (y : List Group × ℕ × ℕ) (t : Template) => do
        require (y.1.length < cap)
        ok (y.1 ++ [⟨y.2.2, t.typ, t.atoms.map (y.2.1 + ·)⟩], y.2.1, y.2.2 + 1)) ts x
      ok (y.1, y.2.1 + nAtom, y.2.2)) nMol (numbered L, first, L.length) (by simp) (by
    rintro i hi x rfl
    refine ⟨_, ?_, rfl⟩
    have hle : (i + 1) * ts.length ≤ nMol * ts.length := Nat.mul_le_mul_right _ hi
    rw [templates_loop cap (first + i * nAtom) ts _ (by
      rw [List.length_append, len]; rw [Nat.add_mul] at hle; omega), ok_bind]
    simp only [List.range_succ, List.flatMap_append, List.flatMap_cons, List.flatMap_nil,
      List.append_nil, List.append_assoc, Nat.add_mul, Nat.one_mul, Nat.add_assoc])
  unfold makeSpeciesGroups
  rw [hx, e]

/-- **C77 (groups).** If the storage of groups is empty and large enough, or not yet allocated, it
then holds the groups of all molecules of all species, numbered from 0 on; the atoms of a group are
those of the template of the species, displaced by the index of the first atom of the molecule. -/
theorem C77_groups {c : Conf} {ts : ℕ → List Template} {cap : ℕ}
    (hcap : cap = 0 ∨ ∑ s ∈ Finset.range c.nSp, (c.sp s).cap * (ts s).length ≤ cap) :
    c.makeGroups ts cap [] =
      ok (numbered ((List.range c.nSp).flatMap fun s => (List.range (c.sp s).cap).flatMap fun m =>
        ofMolecule (ts s) (c.rank s m 0))) := by
  set total := ∑ s ∈ Finset.range c.nSp, (c.sp s).cap * (ts s).length with ht
  let f : ℕ → List (ℤ × List ℕ) := fun s => (List.range (c.sp s).cap).flatMap fun m =>
    ofMolecule (ts s) (c.rank s m 0)
  have len1 : ∀ s, (f s).length = (c.sp s).cap * (ts s).length := by
    intro s
    simp [f, List.length_flatMap, ofMolecule]
  have len : ∀ n, ((List.range n).flatMap f).length =
      ∑ s ∈ Finset.range n, (c.sp s).cap * (ts s).length := by
    intro n
    induction n with
    | zero => simp
    | succ n ih =>
      rw [List.range_succ, List.flatMap_append, List.length_append, ih, Finset.sum_range_succ]
      simp [len1]
  show c.makeGroups ts cap [] = ok (numbered ((List.range c.nSp).flatMap f))
  unfold Conf.makeGroups
  dsimp only
  rw [← ht]
  by_cases h0 : total = 0
  · rw [if_pos h0]
    have : (List.range c.nSp).flatMap f = [] := List.eq_nil_of_length_eq_zero (by rw [len, ← ht, h0])
    rw [this]
    rfl
  · rw [if_neg h0]
    have hle : total ≤ if cap = 0 then total else cap := by
      split_ifs with hc
      · exact le_rfl
      · exact hcap.resolve_left hc
    rw [check_true hle, ok_bind]
    generalize (if cap = 0 then total else cap) = cap' at hle
    obtain ⟨x, hx, e⟩ := loop_range_ok (fun i (x : List Group × ℕ × ℕ) =>
        x = (numbered ((List.range i).flatMap f), c.offset i, ((List.range i).flatMap f).length))
      (fun x s => makeSpeciesGroups cap' (ts s) (c.sp s).cap (c.sp s).nAtom x) c.nSp ([], 0, 0)
      (by simp [numbered, Conf.offset]) (by
      rintro i hi x rfl
      refine ⟨_, species_loop _ _ _ _ _ _ ?_, ?_⟩
      · rw [len]
        have : ∑ s ∈ Finset.range (i + 1), (c.sp s).cap * (ts s).length ≤ total :=
          Finset.sum_le_sum_of_subset (Finset.range_subset_range.2 hi)
        rw [Finset.sum_range_succ] at this
        omega
      · rw [List.range_succ, List.flatMap_append, offset_succ]
        simp [f, Conf.rank])
    rw [hx, ok_bind, e]

/-- **C77 (violated for a second file).** A file with a block `SPECIES` can be read once: when
species have been read, the next such block throws, whether or not the configuration was cleared. -/
theorem C77_reread_violated (p : Spec) (n a n' a' : ℕ) (p1 : Spec) (h : p.read n a = ok p1) :
    p1.read n' a' = throw ∧ p1.clear.read n' a' = throw := by
  unfold Spec.read at h
  simp only [bind_eq_ok, check_eq_ok] at h
  obtain ⟨_, -, _, h2, _, -, h4⟩ := h
  cases h4
  constructor
  · unfold Spec.read
    rw [check_false (not_not.2 h2)]
    rfl
  · unfold Spec.read Spec.clear
    dsimp only
    rw [check_false (not_not.2 h2)]
    rfl

/-- **C77 (violated for empty species).** The reader allows species without molecules, their
containers do not. -/
theorem C77_empty_violated (p : Spec) (a : ℕ) : p.read 0 a = throw := by
  unfold Spec.read
  by_cases h : 0 < p.cap
  · rw [check_false (not_not.2 h)]; rfl
  · rw [check_true h, ok_bind, check_false (lt_irrefl 0)]; rfl

/-- **C77 (violated for written files).** `SmpConfigWriter` does not end the line of the format: the
word after `format` is not a format, and the reader rejects it. -/
theorem C77_format_violated (context : Bool) : readFormat (writtenFormat context) = throw := by
  cases context
  · exact check_false (by decide)
  · exact check_false (by decide)

/-- The formats themselves would be accepted. -/
theorem format_alone : readFormat "itmpv" = ok () ∧ readFormat "itpv" = ok () :=
  ⟨check_true (by decide), check_true (by decide)⟩

end Verif.PpStore
