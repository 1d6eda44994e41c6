/-
C32 for ring molecules and for species defined by explicit lists of groups.
-/
import Verif.Species.Linear
import Mathlib.Algebra.BigOperators.Fin

set_option autoImplicit false

namespace Verif.Species

open Verif.Cpp
open Verif.Cpp.Out

/-! ### Rings -/

/-- The structure of a ring: each atom is bonded to the next one, the last to
the first. -/
structure RingOK (cfg : Cfg) (nAtom type : ℤ) (s : Sp) : Prop where
  atoms : s.nAtom = nAtom
  types : s.types = List.replicate nAtom.toNat type
  bonds : Chain 2 nAtom nAtom (fun i => [(i : ℤ), (i + 1) % nAtom]) 0 s.bonds
  angles : cfg.angle = true →
    Chain 3 nAtom nAtom (fun i => [(i : ℤ), (i + 1) % nAtom, (i + 2) % nAtom]) 0 s.angles
  noAngles : cfg.angle = false → s.angles.n = 0 ∧ PartOK 3 nAtom s.angles
  dihedrals : cfg.dihedral = true →
    Chain 4 nAtom nAtom
      (fun i => [(i : ℤ), (i + 1) % nAtom, (i + 2) % nAtom, (i + 3) % nAtom]) 0 s.dihedrals
  noDihedrals : cfg.dihedral = false → s.dihedrals.n = 0 ∧ PartOK 4 nAtom s.dihedrals

theorem wrap_eq {m i k : ℕ} (hi : i < m) (hk : k ≤ m) :
    ((i : ℤ) + k) % m = if i + k < m then (i : ℤ) + k else i + k - m := by
  by_cases h : i + k < m
  · rw [if_pos h]
    exact Int.emod_eq_of_lt (by omega) (by omega)
  · rw [if_neg h]
    have : ((i : ℤ) + k) = (i + k - m) + m := by ring
    rw [this, Int.add_emod_right, Int.emod_eq_of_lt (by omega) (by omega)]
    ring

def ringFs2 (m : ℕ) : List (ℕ → ℤ) := [fun i => i, fun i => (i + 1) % m]
def ringFs3 (m : ℕ) : List (ℕ → ℤ) := [fun i => i, fun i => (i + 1) % m, fun i => (i + 2) % m]
def ringFs4 (m : ℕ) : List (ℕ → ℤ) :=
  [fun i => i, fun i => (i + 1) % m, fun i => (i + 2) % m, fun i => (i + 3) % m]

theorem wrap1 {m i : ℕ} (hi : i < m) :
    ((i : ℤ) + 1) % m = if i + 1 < m then (i : ℤ) + 1 else i + 1 - m := by
  have := wrap_eq hi (show 1 ≤ m by omega)
  simpa using this

theorem wrap2 {m i : ℕ} (hi : i < m) (h : 2 ≤ m) :
    ((i : ℤ) + 2) % m = if i + 2 < m then (i : ℤ) + 2 else i + 2 - m := by
  have := wrap_eq hi h
  simpa using this

theorem wrap3 {m i : ℕ} (hi : i < m) (h : 3 ≤ m) :
    ((i : ℤ) + 3) % m = if i + 3 < m then (i : ℤ) + 3 else i + 3 - m := by
  have := wrap_eq hi h
  simpa using this

theorem ring_inj (m : ℕ) (h3 : 3 ≤ m) :
    ∀ f ∈ ringFs4 m, ∀ i < m, ∀ j < m, f i = f j → i = j := by
  simp only [ringFs4, List.mem_cons, List.not_mem_nil, or_false]
  rintro f (rfl | rfl | rfl | rfl) i hi j hj h <;> simp only [] at h
  · omega
  · rw [wrap1 hi, wrap1 hj] at h; split_ifs at h <;> omega
  · rw [wrap2 hi (by omega), wrap2 hj (by omega)] at h; split_ifs at h <;> omega
  · rw [wrap3 hi h3, wrap3 hj h3] at h; split_ifs at h <;> omega

theorem ring_range (m : ℕ) (h3 : 3 ≤ m) :
    ∀ f ∈ ringFs4 m, ∀ i < m, 0 ≤ f i ∧ f i < (m : ℤ) := by
  simp only [ringFs4, List.mem_cons, List.not_mem_nil, or_false]
  rintro f (rfl | rfl | rfl | rfl) i hi <;> simp only []
  · omega
  · rw [wrap1 hi]; split_ifs <;> omega
  · rw [wrap2 hi (by omega)]; split_ifs <;> omega
  · rw [wrap3 hi h3]; split_ifs <;> omega

theorem sub23 (m : ℕ) : ∀ f ∈ ringFs2 m, f ∈ ringFs4 m := by
  simp only [ringFs2, ringFs4, List.mem_cons, List.not_mem_nil, or_false]; tauto

theorem sub34 (m : ℕ) : ∀ f ∈ ringFs3 m, f ∈ ringFs4 m := by
  simp only [ringFs3, ringFs4, List.mem_cons, List.not_mem_nil, or_false]; tauto

theorem ring_nodup2 (m : ℕ) (h3 : 3 ≤ m) : ∀ i < m, ((ringFs2 m).map fun f => f i).Nodup := by
  intro i hi
  simp only [ringFs2, List.map_cons, List.map_nil, List.nodup_cons, List.mem_cons,
    List.not_mem_nil, or_false, not_false_eq_true, List.nodup_nil, and_true]
  rw [wrap1 hi]; split_ifs <;> omega

theorem ring_nodup3 (m : ℕ) (h3 : 3 ≤ m) : ∀ i < m, ((ringFs3 m).map fun f => f i).Nodup := by
  intro i hi
  simp only [ringFs3, List.map_cons, List.map_nil, List.nodup_cons, List.mem_cons,
    List.not_mem_nil, or_false, not_false_eq_true, List.nodup_nil, and_true, not_or]
  rw [wrap1 hi, wrap2 hi (by omega)]; split_ifs <;> omega

theorem ring_nodup4 (m : ℕ) (h3 : 4 ≤ m) : ∀ i < m, ((ringFs4 m).map fun f => f i).Nodup := by
  intro i hi
  simp only [ringFs4, List.map_cons, List.map_nil, List.nodup_cons, List.mem_cons,
    List.not_mem_nil, or_false, not_false_eq_true, List.nodup_nil, and_true, not_or]
  rw [wrap1 hi, wrap2 hi (by omega), wrap3 hi (by omega)]; split_ifs <;> omega

/-- Groups of the ring made with four index functions (also for a ring of
three atoms, where they are not made of distinct atoms). -/
theorem ring_make4 (m : ℕ) (h3 : 3 ≤ m) :
    makeAll maxDihedral m
      (fun i => [(i : ℤ), (i + 1) % m, (i + 2) % m, (i + 3) % m]) (fun _ => 0)
      ⟨m, List.replicate m (nullGrp 4), fun _ => []⟩ =
    ok ⟨m, (List.range m).map fun (i : ℕ) =>
        ⟨[(i : ℤ), (i + 1) % m, (i + 2) % m, (i + 3) % m], 0⟩,
      regIds (fun (i : ℕ) => [(i : ℤ), (i + 1) % m, (i + 2) % m, (i + 3) % m]) m⟩ := by
  have := buildPart 4 maxDihedral m m (ringFs4 m) 0 rfl (by decide) (ring_inj m h3)
    (ring_range m h3)
  simpa only [ringFs4, List.map_cons, List.map_nil] using this

theorem replicate_map (m : ℕ) (t : ℤ) : (List.range m).map (fun _ => t) = List.replicate m t := by
  rw [List.eq_replicate_iff]; simp

/-- `buildHomoRing` up to the dihedrals. -/
theorem buildRing_ok (cfg : Cfg) (m : ℕ) (h3 : 3 ≤ m) (type : ℤ) :
    ∃ s, buildHomoRing cfg m type = ok s ∧
      ((cfg.dihedral = true → 4 ≤ m) → RingOK cfg m type s) ∧ s.nAtom = m ∧
      (cfg.dihedral = true → s.dihedrals = ⟨m, (List.range m).map fun (i : ℕ) =>
        ⟨[(i : ℤ), (i + 1) % m, (i + 2) % m, (i + 3) % m], 0⟩,
        regIds (fun (i : ℕ) => [(i : ℤ), (i + 1) % m, (i + 2) % m, (i + 3) % m]) m⟩) := by
  have hb := buildPart 2 maxBond m m (ringFs2 m) 0 rfl (by decide)
    (fun f hf => ring_inj m h3 f (sub23 m f hf)) (fun f hf => ring_range m h3 f (sub23 m f hf))
  have hbc := chain_of 2 m m (ringFs2 m) 0 rfl (fun f hf => ring_range m h3 f (sub23 m f hf))
    (ring_nodup2 m h3)
  have ha := buildPart 3 maxAngle m m (ringFs3 m) 0 rfl (by decide)
    (fun f hf => ring_inj m h3 f (sub34 m f hf)) (fun f hf => ring_range m h3 f (sub34 m f hf))
  have hac := chain_of 3 m m (ringFs3 m) 0 rfl (fun f hf => ring_range m h3 f (sub34 m f hf))
    (ring_nodup3 m h3)
  have hd := ring_make4 m h3
  simp only [ringFs2, ringFs3, List.map_cons, List.map_nil] at hb hbc ha hac
  obtain ⟨pb, hb1, hb2⟩ : ∃ pb, makeAll maxBond m (fun i => [(i : ℤ), (i + 1) % m]) (fun _ => 0)
      ⟨m, List.replicate m (nullGrp 2), fun _ => []⟩ = ok pb ∧
      Chain 2 m m (fun i => [(i : ℤ), (i + 1) % m]) 0 pb := ⟨_, hb, hbc⟩
  obtain ⟨pa, ha1, ha2, ha3⟩ : ∃ pa, (do
      let angles ← allocIf cfg.angle 3 m (if cfg.angle then m else 0)
      makeIf (cfg.angle = true) maxAngle m
        (fun i => [(i : ℤ), (i + 1) % m, (i + 2) % m]) (fun _ => 0) angles) = ok pa ∧
      (cfg.angle = true →
        Chain 3 m m (fun i => [(i : ℤ), (i + 1) % m, (i + 2) % m]) 0 pa) ∧
      (cfg.angle = false → pa.n = 0 ∧ PartOK 3 m pa) := by
    by_cases hc : cfg.angle = true
    · simp only [hc, allocIf, if_true, makeIf]
      rw [allocPart_ok 3 m m (by omega), ok_bind]
      exact ⟨_, ha, fun _ => hac, fun h => by cases h⟩
    · simp only [hc, allocIf, Bool.false_eq_true, if_false, makeIf, ok_bind]
      exact ⟨Part.none, rfl, fun h => h.elim, fun _ => ⟨rfl, partOK_zero 3 m⟩⟩
  obtain ⟨qa, ha4, ha5⟩ := bind_eq_ok.mp ha1
  obtain ⟨pd, hd1, hd2, hd3, hd6⟩ : ∃ pd, (do
      let d ← allocIf cfg.dihedral 4 m (if cfg.dihedral then m else 0)
      makeIf (cfg.dihedral = true) maxDihedral m
        (fun i => [(i : ℤ), (i + 1) % m, (i + 2) % m, (i + 3) % m]) (fun _ => 0) d) = ok pd ∧
      (cfg.dihedral = true → 4 ≤ m →
        Chain 4 m m (fun i => [(i : ℤ), (i + 1) % m, (i + 2) % m, (i + 3) % m]) 0 pd) ∧
      (cfg.dihedral = false → pd.n = 0 ∧ PartOK 4 m pd) ∧
      (cfg.dihedral = true → pd = ⟨m, (List.range m).map fun (i : ℕ) =>
        ⟨[(i : ℤ), (i + 1) % m, (i + 2) % m, (i + 3) % m], 0⟩,
        regIds (fun (i : ℕ) => [(i : ℤ), (i + 1) % m, (i + 2) % m, (i + 3) % m]) m⟩) := by
    by_cases hc : cfg.dihedral = true
    · simp only [hc, allocIf, if_true, makeIf]
      rw [allocPart_ok 4 m m (by omega), ok_bind]
      refine ⟨_, hd, fun _ h4 => ?_, fun h => (by cases h), fun _ => rfl⟩
      have := chain_of 4 m m (ringFs4 m) 0 rfl (ring_range m h3) (ring_nodup4 m h4)
      simpa only [ringFs4, List.map_cons, List.map_nil] using this
    · simp only [hc, allocIf, Bool.false_eq_true, if_false, makeIf, ok_bind]
      exact ⟨Part.none, rfl, fun h => h.elim, fun _ => ⟨rfl, partOK_zero 4 m⟩,
        fun h => h.elim⟩
  obtain ⟨qd, hd4, hd5⟩ := bind_eq_ok.mp hd1
  refine ⟨⟨m, List.replicate m type, pb, pa, pd⟩, ?_, ?_, rfl, hd6⟩
  · unfold buildHomoRing buildRing
    have hat : allocAtoms m = ok (List.replicate m (-1)) := by
      unfold allocAtoms; rw [check_true (by omega), ok_bind, Int.toNat_natCast]
    rw [check_true (by exact_mod_cast h3), ok_bind, check_true rfl, ok_bind,
      check_true (fun h => by simp [h]), ok_bind, check_true (fun h => by simp [h]), ok_bind,
      hat, ok_bind, allocPart_ok 2 m m (by omega), ok_bind, ha4, ok_bind, hd4, ok_bind,
      setTypes_ok m _ (fun _ => type) (fun _ _ => rfl), ok_bind, hb1, ok_bind, ha5, ok_bind,
      hd5, ok_bind, replicate_map]
  · intro h4
    exact ⟨rfl, by simp, hb2, ha2, ha3, fun h => hd2 h (h4 h), hd3⟩

theorem RingOK.valid {cfg : Cfg} {m : ℕ} {type : ℤ} {s : Sp} (h : RingOK cfg m type s)
    (ht : 0 ≤ type) : isValid false s = ok () := by
  have hA : PartOK 3 m s.angles := by
    cases hc : cfg.angle
    · exact (h.noAngles hc).2
    · exact (h.angles hc).ok
  have hD : PartOK 4 m s.dihedrals := by
    cases hc : cfg.dihedral
    · exact (h.noDihedrals hc).2
    · exact (h.dihedrals hc).ok
  unfold isValid
  rw [check_true (by rw [h.types, h.atoms]; simp), ok_bind]
  have : checkTypes false s.types = ok () := by
    simp only [checkTypes, Bool.false_eq_true, if_false, check_eq_ok]
    intro t hmem
    rw [h.types] at hmem
    rw [List.eq_of_mem_replicate hmem]; exact ht
  rw [this, ok_bind, h.atoms, partValid_of_ok h.bonds.ok, ok_bind, partValid_of_ok hA, ok_bind,
    partValid_of_ok hD]

/-- **Rings: what is accepted.** Every ring of at least three atoms (four if
dihedrals are compiled in) of a non-negative atom type can be read, and has the
structure of a ring. -/
theorem C32_ring (cfg : Cfg) (cap nAtom type : ℤ) (h3 : 3 ≤ nAtom)
    (h4 : cfg.dihedral = true → 4 ≤ nAtom) (ht : 0 ≤ type) (rest : PFile) :
    ∃ s, readRing cfg (("moleculeCapacity", [cap]) :: ("nAtom", [nAtom]) ::
        ("type", [type]) :: rest) = ok (⟨cap, nAtom, type, s⟩, rest) ∧
      RingOK cfg nAtom type s := by
  obtain ⟨m, rfl⟩ := Int.eq_ofNat_of_zero_le (show 0 ≤ nAtom by omega)
  obtain ⟨s, hs, hr, -, -⟩ := buildRing_ok cfg m (by omega) type
  have hr := hr fun h => by have := h4 h; omega
  refine ⟨s, ?_, hr⟩
  simp only [readRing, readInt, check_true, ok_bind]
  rw [hs, ok_bind, hr.valid ht, ok_bind]

/-- A ring of five atoms with angles and dihedrals. -/
example : ∃ s, readRing ⟨true, true⟩
    [("moleculeCapacity", [2]), ("nAtom", [5]), ("type", [1])] = ok (⟨2, 5, 1, s⟩, []) := by
  obtain ⟨s, hs, -⟩ := C32_ring ⟨true, true⟩ 2 5 1 (by norm_num) (by norm_num) (by norm_num) []
  exact ⟨s, hs⟩

/-- **Rings: what is rejected.** A ring is accepted only under these
conditions; in particular a ring of three atoms is rejected if dihedrals are
compiled in, since its dihedrals would contain an atom twice. -/
theorem C32_ring_only {cfg : Cfg} {f g : PFile} {h : Ring} (hr : readRing cfg f = ok (h, g)) :
    3 ≤ h.nAtom ∧ (cfg.dihedral = true → 4 ≤ h.nAtom) ∧ 0 ≤ h.type ∧
      RingOK cfg h.nAtom h.type h.sp := by
  unfold readRing at hr
  obtain ⟨⟨cap, f1⟩, -, hr⟩ := bind_eq_ok.mp hr
  obtain ⟨⟨n, f2⟩, -, hr⟩ := bind_eq_ok.mp hr
  obtain ⟨⟨t, f3⟩, -, hr⟩ := bind_eq_ok.mp hr
  obtain ⟨s, hs, hr⟩ := bind_eq_ok.mp hr
  obtain ⟨_, hv, hr⟩ := bind_eq_ok.mp hr
  simp only [Out.ok.injEq, Prod.mk.injEq] at hr hs hv
  obtain ⟨rfl, -⟩ := hr
  simp only []
  have h3 : 3 ≤ n := by
    unfold buildHomoRing buildRing at hs
    obtain ⟨_, h, -⟩ := bind_eq_ok.mp hs
    exact check_eq_ok.mp h
  obtain ⟨m, rfl⟩ := Int.eq_ofNat_of_zero_le (show 0 ≤ n by omega)
  obtain ⟨s', hs', hring, hat, hdih⟩ := buildRing_ok cfg m (by omega) t
  rw [hs'] at hs
  cases hs
  have h4 : cfg.dihedral = true → 4 ≤ m := by
    intro hc
    by_contra hlt
    have hm : m = 3 := by omega
    subst hm
    have hval : partValid 4 (3 : ℕ) s.dihedrals = ok () := by
      unfold isValid at hv
      obtain ⟨_, -, hv⟩ := bind_eq_ok.mp hv
      obtain ⟨_, -, hv⟩ := bind_eq_ok.mp hv
      obtain ⟨_, -, hv⟩ := bind_eq_ok.mp hv
      obtain ⟨_, -, hv⟩ := bind_eq_ok.mp hv
      rw [hat] at hv; exact hv
    rw [hdih hc] at hval
    have hOK := (partValid_iff 4 3 _ (by norm_num) (by
      intro g hg
      obtain ⟨i, -, rfl⟩ := List.mem_map.mp hg
      rfl)).mp hval
    have := hOK.distinct ⟨[((0 : ℕ) : ℤ), (((0 : ℕ) : ℤ) + 1) % (3 : ℕ),
      (((0 : ℕ) : ℤ) + 2) % (3 : ℕ), (((0 : ℕ) : ℤ) + 3) % (3 : ℕ)], 0⟩
      (List.mem_map.mpr ⟨0, by decide, rfl⟩)
    revert this
    decide
  have hok := hring h4
  refine ⟨h3, fun h => by have := h4 h; omega, ?_, hok⟩
  rcases isValid_types hv with h | h
  · cases h
  · refine h t ?_
    rw [hok.types]
    exact List.mem_replicate.mpr ⟨by omega, rfl⟩

/-! ### Species defined by explicit groups -/

/-- What `Species::readParameters` or `loadParameters` does with the groups
after they were read: registration and validation of one kind. -/
theorem initIds_fresh (cap : ℕ) (nAtom n : ℤ) (gs : List Grp) (hn : (gs.length : ℤ) = n) (p : Part) :
    initIds cap nAtom ⟨n, gs, fun _ => []⟩ = ok p ↔
      (∀ g ∈ gs, ∀ a ∈ g.atoms, 0 ≤ a ∧ a < nAtom) ∧
      (∀ k : ℕ, (gs.map fun g => g.atoms.count (k : ℤ)).sum ≤ cap) ∧
      p = ⟨n, gs, regIds (fun i => (gs.getD i (nullGrp 0)).atoms) gs.length⟩ := by
  have hdeg : ∀ k, degree (fun i => (gs.getD i (nullGrp 0)).atoms) gs.length k
      = (gs.map fun g => g.atoms.count (k : ℤ)).sum := by
    intro k
    unfold degree
    rw [Finset.sum_range, ← List.sum_ofFn]
    congr 1
    apply List.ext_getElem (by simp)
    intro i h1 h2
    have : i < gs.length := by simpa using h2
    simp [List.getD, this]
  have hrange : (∀ g ∈ gs, ∀ a ∈ g.atoms, 0 ≤ a ∧ a < nAtom) ↔
      ∀ i < gs.length, ∀ a ∈ (gs.getD i (nullGrp 0)).atoms, 0 ≤ a ∧ a < nAtom := by
    constructor
    · intro h i hi
      rw [List.getD_eq_getElem _ _ hi]
      exact h _ (List.getElem_mem hi)
    · intro h g hg
      obtain ⟨i, hi, rfl⟩ := List.getElem_of_mem hg
      have := h i hi
      rwa [List.getD_eq_getElem _ _ hi] at this
  unfold initIds
  simp only []
  rw [check_true (by omega), ok_bind]
  by_cases hp : 0 < n
  · rw [if_pos hp, check_true hn, ok_bind]
    have hlen : n.toNat = gs.length := by omega
    rw [hlen, bind_eq_ok]
    constructor
    · rintro ⟨ids, h1, h2⟩
      obtain ⟨h3, h4, rfl⟩ := (regLoop_iff cap nAtom _ _ _).mp h1
      cases h2
      refine ⟨hrange.mpr h3, fun k => ?_, rfl⟩
      rw [← hdeg k]; exact h4 k
    · rintro ⟨h1, h2, rfl⟩
      exact ⟨_, (regLoop_iff cap nAtom _ _ _).mpr
        ⟨hrange.mp h1, fun k => by rw [hdeg k]; exact h2 k, rfl⟩, rfl⟩
  · rw [if_neg hp]
    have hgs : gs = [] := by
      have : gs.length = 0 := by omega
      exact List.length_eq_zero_iff.mp this
    subst hgs
    simp only [Out.ok.injEq, List.not_mem_nil, false_implies, implies_true, List.map_nil,
      List.sum_nil, Nat.zero_le, List.length_nil, true_and]
    exact eq_comm

/-- **Explicit groups: exactly the admissible ones are accepted.** Registering
and validating a list of groups of `N` atoms succeeds exactly if each group
consists of distinct atoms of the molecule and no atom belongs to more groups
than an atom can list; the result is then consistent. -/
theorem C32_groups_iff (N cap m : ℕ) (gs : List Grp) (hsize : ∀ g ∈ gs, g.atoms.length = N) :
    (∃ p, initIds cap m ⟨gs.length, gs, fun _ => []⟩ = ok p ∧ partValid N m p = ok ()) ↔
      (∀ g ∈ gs, g.atoms.Nodup ∧ ∀ a ∈ g.atoms, 0 ≤ a ∧ a < (m : ℤ)) ∧
      (∀ k : ℕ, (gs.countP fun g => decide ((k : ℤ) ∈ g.atoms)) ≤ cap) := by
  have hsum : (∀ g ∈ gs, g.atoms.Nodup) → ∀ k : ℕ, (gs.map fun g => g.atoms.count (k : ℤ)).sum
      = gs.countP fun g => decide ((k : ℤ) ∈ g.atoms) := by
    intro h k
    induction gs with
    | nil => simp
    | cons g gs ih =>
      rw [List.map_cons, List.sum_cons, List.countP_cons,
        ih (fun g hg => hsize g (by simp [hg])) (fun g hg => h g (by simp [hg])), add_comm]
      congr 1
      have := h g (by simp)
      by_cases hk : (k : ℤ) ∈ g.atoms
      · simp [hk, List.count_eq_one_of_mem this hk]
      · simp [hk, List.count_eq_zero_of_not_mem hk]
  constructor
  · rintro ⟨p, h1, h2⟩
    obtain ⟨h3, h4, rfl⟩ := (initIds_fresh cap m gs.length gs rfl p).mp h1
    have hnd : ∀ g ∈ gs, g.atoms.Nodup := by
      intro g hg
      have hpos : 0 < (gs.length : ℤ) := by
        have := List.length_pos_of_mem hg; omega
      exact ((partValid_iff N m _ hpos hsize).mp h2).distinct g hg
    refine ⟨fun g hg => ⟨hnd g hg, h3 g hg⟩, fun k => ?_⟩
    rw [← hsum hnd k]; exact h4 k
  · rintro ⟨h1, h2⟩
    have hnd : ∀ g ∈ gs, g.atoms.Nodup := fun g hg => (h1 g hg).1
    refine ⟨_, (initIds_fresh cap m gs.length gs rfl _).mpr
      ⟨fun g hg => (h1 g hg).2, fun k => by rw [hsum hnd k]; exact h2 k, rfl⟩, ?_⟩
    apply partValid_of_ok
    have hg : gs = (List.range gs.length).map fun i =>
        (⟨(gs.getD i (nullGrp 0)).atoms, (gs.getD i (nullGrp 0)).typeId⟩ : Grp) := by
      apply List.ext_getElem (by simp)
      intro i h1 h2
      simp [List.getD, h1]
    have := partOK_reg N m gs.length (fun i => (gs.getD i (nullGrp 0)).atoms)
      (fun i => (gs.getD i (nullGrp 0)).typeId)
      (fun i hi => by rw [List.getD_eq_getElem _ _ hi]; exact hsize _ (List.getElem_mem hi))
      (fun i hi => by rw [List.getD_eq_getElem _ _ hi]; exact (h1 _ (List.getElem_mem hi)).2)
      (fun i hi => by rw [List.getD_eq_getElem _ _ hi]; exact (h1 _ (List.getElem_mem hi)).1)
    rw [← hg] at this
    exact this

/-- A branched molecule: one atom bonded to four others is accepted, but not
to five. -/
example : ∃ p, initIds maxBond (5 : ℕ)
    ⟨4, [⟨[0, 1], 0⟩, ⟨[0, 2], 0⟩, ⟨[0, 3], 0⟩, ⟨[0, 4], 0⟩], fun _ => []⟩ = ok p ∧
    partValid 2 (5 : ℕ) p = ok () := by
  refine (C32_groups_iff 2 maxBond 5
    [⟨[0, 1], 0⟩, ⟨[0, 2], 0⟩, ⟨[0, 3], 0⟩, ⟨[0, 4], 0⟩] (by simp)).mpr ⟨by decide, fun k => ?_⟩
  exact List.countP_le_length.trans (by decide)

example : ¬ ∃ p, initIds maxBond (6 : ℕ)
    ⟨5, [⟨[0, 1], 0⟩, ⟨[0, 2], 0⟩, ⟨[0, 3], 0⟩, ⟨[0, 4], 0⟩, ⟨[0, 5], 0⟩], fun _ => []⟩ = ok p ∧
    partValid 2 (6 : ℕ) p = ok () := by
  intro h
  have := ((C32_groups_iff 2 maxBond 6
    [⟨[0, 1], 0⟩, ⟨[0, 2], 0⟩, ⟨[0, 3], 0⟩, ⟨[0, 4], 0⟩, ⟨[0, 5], 0⟩] (by simp)).mp h).2 0
  revert this
  decide

end Verif.Species
