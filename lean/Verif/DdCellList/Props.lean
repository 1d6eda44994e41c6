import Verif.DdCellList.Geometry
import Verif.DdExchange.GhostProps

/-!
# C21, C22: the cell list and pair list of a processor

Specification: `Within` is the Cartesian distance test, `Frame` what the lists need to know about
the boundary (both boundary classes satisfy it), `Lists` says that a processor has built its cell
list and pair list by the modelled calls and that an iterator visits the pairs `P`.
-/

set_option autoImplicit false

namespace Verif.DdCellList

open Verif.Boundary Verif.Cpp Verif.McCellList

variable {A : Type}

/-- The transformation from scaled to Cartesian coordinates is linear and the length `L i` times
a scaled coordinate is at most the Cartesian length; if there is more than one cell per cutoff,
the axes are orthogonal. -/
structure Frame (L : Vec) (cart : Vec → Vec) (n : ℤ) : Prop where
  pos : ∀ i, 0 < L i
  lin : ∀ x y, cart x - cart y = cart (x - y)
  bound : ∀ w i, (L i * w i) ^ 2 ≤ normSq (cart w)
  opt : n = 1 ∨ ∀ w, (L 0 * w 0) ^ 2 + (L 1 * w 1) ^ 2 + (L 2 * w 2) ^ 2 ≤ normSq (cart w)

/-- Orthorhombic boundaries, any number of cells per cutoff. -/
theorem frame_ortho {b : Ortho} (hb : b.Reach) (n : ℤ) : Frame b.lengths b.toCart n := by
  have e : ∀ w i, b.lengths i * w i = b.toCart w i := fun w i => by unfold Ortho.toCart; ring
  refine ⟨hb.ok.pos, ?_, ?_, Or.inr ?_⟩
  · intro x y; funext i; simp only [Pi.sub_apply, Ortho.toCart]; ring
  · intro w i
    rw [e]
    unfold normSq
    fin_cases i <;> simp <;>
      nlinarith [sq_nonneg (b.toCart w 0), sq_nonneg (b.toCart w 1), sq_nonneg (b.toCart w 2)]
  · intro w; rw [e, e, e]; exact le_rfl

/-- Monoclinic boundaries, one cell per cutoff. -/
theorem frame_mono {b : Mono} (hb : b.Reach) : Frame b.lengths b.toCart 1 := by
  refine ⟨(geo_mono hb).pos, ?_, ?_, Or.inl rfl⟩
  · intro x y; funext i
    fin_cases i <;> simp [Mono.toCart] <;> ring
  · intro w i
    have h := (geo_mono hb).bound (b.toCart w) i
    rwa [(C25_mono_inverse hb w).2] at h

/-- The distance of two scaled positions is less than `c`. -/
def Within (cart : Vec → Vec) (c : ℝ) (x y : Vec) : Prop := normSq (cart y - cart x) < c ^ 2

open Classical in
/-- Test made for a pair (PairList.cpp:179-180). -/
noncomputable def test (cart : Vec → Vec) (c : ℝ) (pos : A → Vec) (masked : A → A → Prop) (a b : A) : Bool :=
  decide (Within cart c (pos a) (pos b) ∧ ¬ masked a b)

/-- A processor with domain `lower`, `upper` calls `buildCellList` and `buildPairList` for its
local atoms and ghosts `atoms`, from any reachable state of the cell list, without exception, and
an iterator then visits the pairs `P`. -/
def Lists (L : Vec) (cart : Vec → Vec) (lower upper : Vec) (c : ℝ) (n : ℤ) (reverse : Bool) (pos : A → Vec)
    (masked : A → A → Prop) (atoms : List A) (P : List (A × A)) : Prop :=
  ∃ (s0 s : CL A) (p : PL A) (totalCap cap sc pc : ℕ), s0.Reach ∧ 0 < totalCap ∧
    atoms.length ≤ totalCap ∧
    s0.buildAll totalCap lower upper (fun i => c / L i) n (atoms.map fun a => (a, pos a)) = .ok s ∧
    buildPairList s reverse cap (lift (test cart c pos masked)) sc pc = .ok p ∧
    (p.begin' Iter.start).pairs = P.map fun q => (some (some q.1), some (some q.2))

theorem Within.symm {cart : Vec → Vec} {c : ℝ} {x y : Vec} (h : Within cart c x y) :
    Within cart c y x := by
  unfold Within at *
  rwa [← normSq_neg, neg_sub]

theorem Within.each {L : Vec} {cart : Vec → Vec} {n : ℤ} (hf : Frame L cart n) {c : ℝ} (hc : 0 < c)
    {x y : Vec} (h : Within cart c x y) (i : Fin 3) : |y i - x i| < c / L i := by
  unfold Within at h
  rw [hf.lin] at h
  have h1 := (hf.bound (y - x) i).trans_lt h
  have h2 := abs_lt_of_sq_lt_sq h1 hc.le
  rw [lt_div_iff₀ (hf.pos i)]
  have h3 : |y i - x i| * L i = |L i * (y - x) i| := by
    rw [abs_mul, abs_of_pos (hf.pos i), Pi.sub_apply, mul_comm]
  rw [h3]
  exact h2

theorem Within.sum {L : Vec} {cart : Vec → Vec} {n : ℤ} (hf : Frame L cart n) {c : ℝ} (hc : 0 < c)
    {x y : Vec} (h : Within cart c x y) : n = 1 ∨ ((y 0 - x 0) / (c / L 0)) ^ 2 +
      ((y 1 - x 1) / (c / L 1)) ^ 2 + ((y 2 - x 2) / (c / L 2)) ^ 2 ≤ 1 := by
  rcases hf.opt with h1 | h1
  · exact Or.inl h1
  · right
    unfold Within at h
    rw [hf.lin] at h
    have h2 := (h1 (y - x)).trans h.le
    simp only [Pi.sub_apply] at h2
    have e : ∀ i, ((y i - x i) / (c / L i)) ^ 2 = (L i * (y i - x i)) ^ 2 / c ^ 2 := by
      intro i
      have := (hf.pos i).ne'
      have := hc.ne'
      field_simp
    rw [e, e, e, ← add_div, ← add_div, div_le_one (by positivity)]
    exact h2

theorem buildAll_args {s t : CL A} {cap : ℕ} {lower upper cut : Vec} {n : ℤ} {atoms : List (A × Vec)}
    (h : s.buildAll cap lower upper cut n atoms = .ok t) :
    1 ≤ n ∧ n ≤ 4 ∧ ∀ i, cut i ≤ upper i - lower i := by
  unfold CL.buildAll at h
  generalize (if cap > s.atomCap then s.setAtomCapacity cap else s) = s' at h
  cases hg : s'.makeGrid lower upper cut n with
  | error e => simp [hg, Except.bind] at h
  | ok t => exact makeGrid_args hg

theorem buildCellList_ok {s0 s : CL A} (hr : s0.Reach) {totalCap : ℕ} (h0 : 0 < totalCap)
    {L lower upper : Vec} {c : ℝ} {n : ℤ} (hL : ∀ i, 0 < L i) (hc : 0 < c) {atoms : List (A × Vec)}
    (hcap : atoms.length ≤ totalCap)
    (h : s0.buildAll totalCap lower upper (fun i => c / L i) n atoms = .ok s) :
    Made s lower upper (fun i => c / L i) n ∧ Built s ∧ s.tags = tagsOf s atoms ∧
      s.tags.length + s.nReject = atoms.length := by
  obtain ⟨a1, a2, a3⟩ := buildAll_args h
  obtain ⟨t, h1, h2⟩ := buildAll_ok hr.inv totalCap h0 lower upper (fun i => c / L i) n a1 a2
    (fun i => div_pos hc (hL i)) a3 atoms hcap
  rw [h1] at h
  simp only [Except.ok.injEq] at h
  subst h
  exact h2

theorem Lists.spec {L : Vec} {cart : Vec → Vec} {lower upper : Vec} {c : ℝ} {n : ℤ} {reverse : Bool}
    {pos : A → Vec} {masked : A → A → Prop} {atoms : List A} {P : List (A × A)}
    (h : Lists L cart lower upper c n reverse pos masked atoms P) (hL : ∀ i, 0 < L i) (hc : 0 < c)
    (hnd : atoms.Nodup) (hz : reverse = true ∨ 2 * (c / L 2) ≤ upper 2 - lower 2) :
    ∃ s : CL A, Made s lower upper (fun i => c / L i) n ∧ P.Nodup ∧ ∀ a b, (a, b) ∈ P ↔
      Listed s (fun i => c / L i) n reverse (test cart c pos masked) pos atoms a b := by
  obtain ⟨s0, s, p, totalCap, cap, sc, pc, h1, h2, h3, h4, h5, h6⟩ := h
  obtain ⟨m1, m2, m3, -⟩ := buildCellList_ok h1 h2 hL hc (by simpa using h3) h4
  have hcut : ∀ i, 0 < c / L i := fun i => div_pos hc (hL i)
  have hz' : reverse = true ∨ 2 * n ≤ axisDim (upper 2 - lower 2) (c / L 2) n := by
    refine hz.imp_right fun hz => ?_
    have hn : (0 : ℝ) < n := by exact_mod_cast (by have := m1.one_le; omega : 0 < n)
    unfold axisDim
    rw [trunc_of_nonneg (div_nonneg (mul_nonneg (by linarith [hcut 2]) hn.le) (hcut 2).le), Int.le_floor,
      le_div_iff₀ (hcut 2)]
    push_cast
    nlinarith
  obtain ⟨P', q1, q2, q3⟩ := pairs_spec m1 m2 hcut m3 hnd hz' h5
  have : P = P' := by
    rw [q1] at h6
    have inj : Function.Injective (fun q : A × A => (some (some q.1), some (some q.2))) := by
      rintro ⟨a, b⟩ ⟨a', b'⟩ e
      simpa using e
    exact (inj.list_map h6).symm
  subst this
  exact ⟨s, m1, q2, q3⟩

/-! ## C21: completeness -/

/-- **C21.** After `buildCellList` from any reachable state, let `a` be an atom in the domain of the
processor and `b` any local atom or ghost closer than the cutoff. Then both are in the cell list,
`a` in a local cell, and the difference of their cell indices is in one of the stored strips of
offsets, in both directions. -/
theorem C21_complete {L : Vec} {cart : Vec → Vec} {n : ℤ} (hf : Frame L cart n) {c : ℝ} (hc : 0 < c)
    {s0 s : CL A} (hr : s0.Reach) {totalCap : ℕ} (h0 : 0 < totalCap) {lower upper : Vec}
    {atoms : List (A × Vec)} (hcap : atoms.length ≤ totalCap)
    (h : s0.buildAll totalCap lower upper (fun i => c / L i) n atoms = .ok s)
    (a b : A × Vec) (ha : a ∈ atoms) (hb : b ∈ atoms)
    (hdom : ∀ i, lower i ≤ a.2 i ∧ a.2 i < upper i) (hw : Within cart c a.2 b.2) :
    ∃ ka kb, (a.1, ka) ∈ s.tags ∧ (b.1, kb) ∈ s.tags ∧ (s.cells ka).ghost = false ∧
      (∃ o ∈ s.offsets, o.1 ≤ kb - ka ∧ kb - ka ≤ o.2) ∧
      ∃ o ∈ s.offsets, o.1 ≤ ka - kb ∧ ka - kb ≤ o.2 := by
  obtain ⟨m1, m2, m3, -⟩ := buildCellList_ok hr h0 hf.pos hc hcap h
  have hcut : ∀ i, 0 < c / L i := fun i => div_pos hc (hf.pos i)
  have ia := m1.inside_local hcut hdom
  have ib := m1.inside_near hcut hdom (hw.each hf hc)
  have hnear := m1.near hcut a.2 b.2 (hw.each hf hc) (hw.sum hf hc)
  have hta : ∀ x : A × Vec, x ∈ atoms → s.Inside x.2 →
      (x.1, cellIndex s.dim (s.coord x.2 0) (s.coord x.2 1) (s.coord x.2 2)) ∈ s.tags := by
    intro x hx hix
    rw [m3]
    unfold tagsOf
    rw [List.mem_flatMap]
    exact ⟨x, hx, by rw [m1.index_eq hcut x.2 hix]; simp⟩
  have hoff : cellIndex s.dim (s.coord b.2 0) (s.coord b.2 1) (s.coord b.2 2) =
      cellIndex s.dim (s.coord a.2 0) (s.coord a.2 1) (s.coord a.2 2) +
      off s.dim (s.coord b.2 - s.coord a.2) := by
    rw [← cellIndex_add]; simp
  have ga := m1.coord_inGrid hcut ia
  have hr' := cellIndex_range ga
  refine ⟨_, _, hta a ha ia, hta b hb ib, ?_, ?_, ?_⟩
  · rw [m2.link.ghost _ hr'.1 (by rw [m2.link.size]; exact hr'.2), m1.nCut,
      mem_localCells_index (by have := m1.one_le; omega) ga, m1.isLocal_iff hcut]
    exact hdom
  · rw [hoff, add_sub_cancel_left]
    exact m1.covered hnear
  · rw [hoff, sub_add_cancel_left, ← off_neg]
    exact m1.covered (near_neg hnear)

/-- **C21, any two atoms of the extended domain** (the domain and a border as wide as the cutoff),
local or ghost: if they are closer than the cutoff, the difference of their cell indices is in one
of the stored strips of offsets, in both directions. -/
theorem C21_extended {L : Vec} {cart : Vec → Vec} {n : ℤ} (hf : Frame L cart n) {c : ℝ} (hc : 0 < c)
    {s0 s : CL A} (hr : s0.Reach) {totalCap : ℕ} (h0 : 0 < totalCap) {lower upper : Vec}
    {atoms : List (A × Vec)} (hcap : atoms.length ≤ totalCap)
    (h : s0.buildAll totalCap lower upper (fun i => c / L i) n atoms = .ok s)
    (a b : A × Vec) (ha : a ∈ atoms) (hb : b ∈ atoms)
    (hda : ∀ i, lower i - c / L i < a.2 i ∧ a.2 i < upper i + c / L i)
    (hdb : ∀ i, lower i - c / L i < b.2 i ∧ b.2 i < upper i + c / L i)
    (hw : Within cart c a.2 b.2) :
    ∃ ka kb, (a.1, ka) ∈ s.tags ∧ (b.1, kb) ∈ s.tags ∧
      (∃ o ∈ s.offsets, o.1 ≤ kb - ka ∧ kb - ka ≤ o.2) ∧
      ∃ o ∈ s.offsets, o.1 ≤ ka - kb ∧ ka - kb ≤ o.2 := by
  obtain ⟨m1, m2, m3, -⟩ := buildCellList_ok hr h0 hf.pos hc hcap h
  have hcut : ∀ i, 0 < c / L i := fun i => div_pos hc (hf.pos i)
  have hin : ∀ x : Vec, (∀ i, lower i - c / L i < x i ∧ x i < upper i + c / L i) → s.Inside x := by
    intro x hx i
    have := m1.cut_le hcut i
    have := hx i
    rw [m1.lowerOuter i, m1.upperOuter i]
    constructor <;> linarith [(hx i).1, (hx i).2]
  have hnear := m1.near hcut a.2 b.2 (hw.each hf hc) (hw.sum hf hc)
  have hta : ∀ x : A × Vec, x ∈ atoms → s.Inside x.2 →
      (x.1, cellIndex s.dim (s.coord x.2 0) (s.coord x.2 1) (s.coord x.2 2)) ∈ s.tags := by
    intro x hx hix
    rw [m3]
    unfold tagsOf
    rw [List.mem_flatMap]
    exact ⟨x, hx, by rw [m1.index_eq hcut x.2 hix]; simp⟩
  have hoff : cellIndex s.dim (s.coord b.2 0) (s.coord b.2 1) (s.coord b.2 2) =
      cellIndex s.dim (s.coord a.2 0) (s.coord a.2 1) (s.coord a.2 2) +
      off s.dim (s.coord b.2 - s.coord a.2) := by
    rw [← cellIndex_add]; simp
  refine ⟨_, _, hta a ha (hin _ hda), hta b hb (hin _ hdb), ?_, ?_⟩
  · rw [hoff, add_sub_cancel_left]
    exact m1.covered hnear
  · rw [hoff, sub_add_cancel_left, ← off_neg]
    exact m1.covered (near_neg hnear)

/-- **C21, orthorhombic boundaries**: any number of cells per cutoff. -/
theorem C21_complete_ortho {bd : Ortho} (hbd : bd.Reach) {n : ℤ} {c : ℝ} (hc : 0 < c)
    {s0 s : CL A} (hr : s0.Reach) {totalCap : ℕ} (h0 : 0 < totalCap) {lower upper : Vec}
    {atoms : List (A × Vec)} (hcap : atoms.length ≤ totalCap)
    (h : s0.buildAll totalCap lower upper (fun i => c / bd.lengths i) n atoms = .ok s)
    (a b : A × Vec) (ha : a ∈ atoms) (hb : b ∈ atoms)
    (hdom : ∀ i, lower i ≤ a.2 i ∧ a.2 i < upper i)
    (hw : normSq (bd.toCart b.2 - bd.toCart a.2) < c ^ 2) :
    ∃ ka kb, (a.1, ka) ∈ s.tags ∧ (b.1, kb) ∈ s.tags ∧ (s.cells ka).ghost = false ∧
      (∃ o ∈ s.offsets, o.1 ≤ kb - ka ∧ kb - ka ≤ o.2) ∧
      ∃ o ∈ s.offsets, o.1 ≤ ka - kb ∧ ka - kb ≤ o.2 :=
  C21_complete (frame_ortho hbd n) hc hr h0 hcap h a b ha hb hdom hw

/-- **C21, monoclinic boundaries**: one cell per cutoff (see `C21_mono_pairs_lost` for more). -/
theorem C21_complete_mono {bd : Mono} (hbd : bd.Reach) {c : ℝ} (hc : 0 < c)
    {s0 s : CL A} (hr : s0.Reach) {totalCap : ℕ} (h0 : 0 < totalCap) {lower upper : Vec}
    {atoms : List (A × Vec)} (hcap : atoms.length ≤ totalCap)
    (h : s0.buildAll totalCap lower upper (fun i => c / bd.lengths i) 1 atoms = .ok s)
    (a b : A × Vec) (ha : a ∈ atoms) (hb : b ∈ atoms)
    (hdom : ∀ i, lower i ≤ a.2 i ∧ a.2 i < upper i)
    (hw : normSq (bd.toCart b.2 - bd.toCart a.2) < c ^ 2) :
    ∃ ka kb, (a.1, ka) ∈ s.tags ∧ (b.1, kb) ∈ s.tags ∧ (s.cells ka).ghost = false ∧
      (∃ o ∈ s.offsets, o.1 ≤ kb - ka ∧ kb - ka ≤ o.2) ∧
      ∃ o ∈ s.offsets, o.1 ≤ ka - kb ∧ ka - kb ≤ o.2 :=
  C21_complete (frame_mono hbd) hc hr h0 hcap h a b ha hb hdom hw

/-- `buildCellList` never throws, and never reads or writes outside an array, if the cutoff
does not exceed the domain and the storage holds the atoms: each atom is in the list or rejected. -/
theorem C21_build_succeeds {s0 : CL A} (hr : s0.Reach) {totalCap : ℕ} (h0 : 0 < totalCap)
    {lower upper cut : Vec} {n : ℤ} (hn : 1 ≤ n) (hn4 : n ≤ 4) (hcut : ∀ i, 0 < cut i)
    (hle : ∀ i, cut i ≤ upper i - lower i) {atoms : List (A × Vec)}
    (hcap : atoms.length ≤ totalCap) :
    ∃ s, s0.buildAll totalCap lower upper cut n atoms = .ok s ∧ s.built = true ∧
      s.tags.length + s.nReject = atoms.length := by
  obtain ⟨t, h1, h2, h3, h4, h5⟩ := buildAll_ok hr.inv totalCap h0 lower upper cut n hn hn4 hcut hle
    atoms hcap
  exact ⟨t, h1, h3.built, h5⟩

/-- The array of offsets never overflows. -/
theorem C21_offsets_fit {s t : CL A} (hr : s.Reach) {lower upper cut : Vec} {n : ℤ}
    (hcut : ∀ i, 0 < cut i) (h : s.makeGrid lower upper cut n = .ok t) :
    t.offsets.length ≤ offsetCapacity := by
  obtain ⟨a1, a2, a3⟩ := makeGrid_args h
  obtain ⟨t', h1, h2, -⟩ := makeGrid_ok hr.inv lower upper cut n a1 a2 hcut a3
  rw [h1] at h
  simp only [Except.ok.injEq] at h
  subst h
  rw [h2.offsets]
  have hq : ∀ i, 0 ≤ t'.len i / cut i := fun i => div_nonneg (h2.len_pos hcut i).le (hcut i).le
  have hd := h2.link.dim
  rw [h2.nCut] at hd
  have := length_makeOffsets t'.dim (fun i => t'.len i / cut i) (n := n) hq (by omega)
    (fun i => by have := hd i; omega)
  unfold offsetCapacity
  have h3 : n.toNat ≤ 4 := by omega
  have h4 : (2 * n.toNat + 1) * (2 * n.toNat + 1) ≤ 9 * 9 := Nat.mul_le_mul (by omega) (by omega)
  omega

end Verif.DdCellList
