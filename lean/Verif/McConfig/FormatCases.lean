/-
C58: boundaries read from LAMMPS files, and simulations that meet the hypotheses.
-/
import Verif.McConfig.FormatSmp

set_option autoImplicit false

namespace Verif.McConfig

open Verif.Cpp
open Verif.Cpp.Out
open Verif.Boundary (Vec Ortho Mono)
open Verif.McLink (nLink atomLinkCapacity)

variable {B : Type}

/-- **C58, boundaries of LAMMPS files.** With `OrthorhombicBoundary` the lengths
are restored, but every lattice system becomes orthorhombic; a tilted
`MonoclinicBoundary` becomes one of smaller volume. -/
theorem C58_lammps_box :
    (∀ b c : Ortho, b.Reach → c.Reach → (orthoIO.setOrtho c (orthoIO.lengths b)).lengths = b.lengths ∧
      (orthoIO.setOrtho c (orthoIO.lengths b)).lattice = .orthorhombic) ∧
    ∀ b c : Mono, b.Reach → c.Reach → b.d ≠ 0 →
      (monoIO.setOrtho c (monoIO.lengths b)).volume < b.volume := by
  refine ⟨fun b c hb hc => ⟨?_, rfl⟩, fun b c hb hc hd => ?_⟩
  · funext i
    have : c.minima i = 0 := hc.ok.minima i
    simp only [orthoIO, Ortho.setOrthorhombic, Ortho.reset, this, sub_zero]
  · have hok := hb.ok
    have h0 := hok.pos 0
    have h1 := hok.pos 1
    have h2 := hok.pos 2
    simp only [monoIO, Mono.setOrthorhombic, Mono.reset, hok.volume, hok.lengths]
    simp only [Matrix.cons_val_zero, Matrix.cons_val_one, Matrix.cons_val]
    have hc3 : 0 < b.c3 * b.c3 := by
      have : b.c3 ≠ 0 := by
        rw [hok.c3]
        exact div_ne_zero (neg_ne_zero.mpr hd) h1.ne'
      exact mul_self_pos.mpr this
    have hs : 1 < Real.sqrt (1 + b.c3 * b.c3) := by
      rw [Real.lt_sqrt (by norm_num)]
      linarith
    have : b.l 2 / Real.sqrt (1 + b.c3 * b.c3) < b.l 2 := div_lt_self h2 hs
    exact mul_lt_mul_of_pos_left this (mul_pos h0 h1)

/-- The boundaries of `C58_lammps_box` exist. -/
example : ∃ b : Mono, b.Reach ∧ b.d ≠ 0 :=
  ⟨_, .mono (fun _ => 1) 1 (fun _ => one_pos) .default, by
    simp [Mono.setMonoclinic, Mono.reset]⟩

/-- Two molecules of two atoms of different types, with a bond. -/
def exChain : Sim where
  nSp := 1
  cap _ := 2
  nAtom _ := 2
  nBond _ := 1
  nAngle _ := 0
  nDihedral _ := 0
  atomType _ a := a
  isMutable _ := false
  nState _ := 0
  stateType _ _ _ := 0
  nAtomType := 2
  nBondType := 1
  nAngleType := 0
  nDihedralType := 0
  cfg := ⟨false, false⟩
  sp _ := ⟨2, [0, 1], ⟨1, [⟨[0, 1], 0⟩], fun _ => [0]⟩, ⟨0, [], fun _ => []⟩,
    ⟨0, [], fun _ => []⟩⟩
  useLinks := true
  strict := true
  atomId _ i a := 2 * i + a
  owner x := (0, x / 2, x % 2)

theorem exChain_atoms : exChain.AtomsOK 4 where
  owner k hk i hi a ha := by
    simp only [exChain] at *
    refine Prod.ext (by dsimp only; omega) (Prod.ext ?_ ?_) <;> dsimp only <;> omega
  bound k hk i hi a ha := by simp only [exChain] at *; omega

theorem exChain_shape (k : ℕ) :
    Species.SpShape (exChain.sp k) ∧ (exChain.sp k).angles.grps = [] := by
  refine ⟨⟨rfl, ⟨rfl, ?_⟩, ⟨rfl, nofun⟩, ⟨rfl, nofun⟩⟩, rfl⟩
  intro g hg
  simp only [exChain, List.mem_singleton] at hg
  rw [hg]; rfl

/-- Both molecules in system 0, with a link between them. -/
theorem exFull : ∃ src : St Ortho, SmpSource orthoIO exChain 4 0 src ∧ src.ids 0 0 = [0, 1] ∧
    src.pool.res 0 = [] ∧ nLink src.lm = 1 ∧ ∃ reg, McLink.Inv 2 4 src.lm reg := by
  have hI := McPool.Inv.init (McPool.init_ok 1 exChain.cap)
  obtain ⟨p, pl, -, h2, h3, h4⟩ := McPool.addMany_ok (S := 0) (k := 0) (by omega) [0, 1] []
    _ _ hI rfl
  obtain ⟨lm, h5, h6⟩ : ∃ lm, McLink.addLink true 1 2 7 (McLink.init 2 4) = ok lm ∧
      McLink.Inv 2 4 lm (McLink.Reg.put (fun _ => none) 0 (some (1, 2, 7))) := by
    refine ⟨_, rfl, ?_⟩
    exact (McLink.Reach.add (strict := true) (i := 0) (a := 1) (b := 2) (t := 7) McLink.Reach.init (by decide)
      rfl rfl).inv
  replace h4 : (p.set 0 0).elems = [0, 1] := h4
  let src : St Ortho := ⟨Ortho.default, p,
    fun _ i => ⟨fun a => ⟨fun _ => 1 / 4 + i, fun _ => 3, a⟩, none⟩, fun _ _ => 0, lm⟩
  have hlm : McLink.addLink true 1 2 7 (McLink.init 2 4) = ok lm := h5
  have hel : src.ids 0 0 = [0, 1] := h4
  have hln : nLink src.lm = 1 := by cases hlm; rfl
  refine ⟨src, ⟨by simp [exChain], fun k _ => exChain_shape k, .default, ⟨pl, h2⟩, ?_, 2, _, h6,
    fun _ => ⟨by rw [hln]; exact one_pos, ?_, ?_⟩⟩, hel, h3, hln, _, h6⟩
  · intro k hk i hi a ha
    rfl
  · intro x
    have hsub : (lm.ofAtom x) ⊆ [0] := by
      intro i hi
      obtain ⟨c, z, h | h⟩ := (h6.atoms i x).mp hi <;>
      · unfold McLink.Reg.put at h
        split at h
        · next e => rw [e]; exact List.mem_singleton_self _
        · cases h
    have := ((h6.nodup x).subperm hsub).length_le
    exact this.trans (by decide)
  · intro i a b z hr
    unfold McLink.Reg.put at hr
    split at hr
    · simp only [Option.some.injEq, Prod.mk.injEq] at hr
      obtain ⟨rfl, rfl, rfl⟩ := hr
      exact ⟨⟨0, by simp [exChain], 0, by rw [hel]; simp, 1, by simp [exChain], rfl⟩,
        ⟨0, by simp [exChain], 1, by rw [hel]; simp, 0, by simp [exChain], rfl⟩⟩
    · cases hr

/-- The same simulation just after its start. -/
theorem exChainFresh : ∃ t : St Ortho, t.box.Reach ∧ PoolOK exChain t.pool ∧ isEmpty exChain 0 t ∧
    t.pool.res 0 = [0, 1] ∧ nLink t.lm = 0 ∧ McLink.Inv 2 4 t.lm (fun _ => none) :=
  ⟨⟨Ortho.default, ⟨1, exChain.cap, fun k => if k < 1 then List.range (exChain.cap k) else [],
    fun _ _ => McPool.ASet.empty, fun _ _ => none⟩,
    fun _ _ => ⟨fun _ => ⟨0, 0, 0⟩, none⟩, fun _ _ => 0, McLink.init 2 4⟩, .default,
    ⟨_, McPool.Inv.init (McPool.init_ok 1 exChain.cap)⟩, fun _ _ => rfl, rfl, rfl,
    McLink.Inv.init_ok⟩

/-- `C58_ddmd` and `C58_lammps` apply to the full system and a fresh simulation,
and to the full system itself. -/
example : ∃ src t : St Ortho, orthoIO.Good src.box ∧ orthoIO.Good t.box ∧ PoolOK exChain t.pool ∧
    (∃ reg, McLink.Inv 2 4 t.lm reg) ∧ FullInOrder exChain 0 src 0 t ∧
    FullInOrder exChain 0 src 0 src ∧ nAtomOf exChain 0 src = 4 ∧
    ∀ k < exChain.nSp, exChain.nBond k = (exChain.sp k).bonds.grps.length := by
  obtain ⟨src, hs, h1, h2, -, -⟩ := exFull
  obtain ⟨t, ht1, ht2, ht3, ht4, -, ht6⟩ := exChainFresh
  have h0 : ∀ k < exChain.nSp, k = 0 := fun k hk => by simp only [exChain] at hk; omega
  refine ⟨src, t, hs.box, ht1, ht2, ⟨_, ht6⟩, fun k hk => ?_,
    .self hs.pool fun k hk => ?_, ?_, fun _ _ => rfl⟩
  · obtain rfl := h0 k hk
    refine ⟨by rw [h1]; rfl, ?_⟩
    rw [h1, ht4, ht3 0 (by simp [exChain])]
    rfl
  · obtain rfl := h0 k hk
    rw [McPool.nMolecule]
    exact congrArg List.length h1
  · unfold nAtomOf
    simp only [exChain, List.range_one, List.map_cons, List.map_nil, List.sum_singleton, h1]
    rfl

/-- `C58_smp` applies to the full system and a fresh simulation. -/
example : ∃ src t : St Ortho, SmpSource orthoIO exChain 4 0 src ∧
    Target orthoIO exChain 4 0 src 0 t ∧ nLink src.lm = 1 := by
  obtain ⟨src, hs, h1, h2, h3, -⟩ := exFull
  obtain ⟨t, ht1, ht2, ht3, ht4, ht5, ht6⟩ := exChainFresh
  refine ⟨src, t, hs, ⟨ht1, ht2, fun k hk => ?_, 2, _, ht6, fun _ => ⟨by omega, fun _ => ht5⟩⟩, h3⟩
  obtain rfl : k = 0 := by simp only [exChain] at hk; omega
  rw [ht4, McPool.nMolecule, show (src.pool.set 0 0).elems = [0, 1] from h1]
  exact Nat.le_add_left _ _

/-- `C58_ddmd_rejected` and `C58_lammps_rejected`: two of three molecules are in
the system. -/
example : ∃ src t : St Ortho, orthoIO.Good src.box ∧ PoolOK exSim src.pool ∧ orthoIO.Good t.box ∧
    PoolOK exSim t.pool ∧ (∃ reg, McLink.Inv 2 6 t.lm reg) ∧
    (∀ k < exSim.nSp, (t.ids 0 k ++ t.pool.res k).length = exSim.cap k) ∧
    (∀ k < exSim.nSp, 0 < exSim.nAtom k) ∧ ¬ FullInOrder exSim 0 src 0 t := by
  obtain ⟨src, hs, h1, -⟩ := exSrc
  obtain ⟨t, ht1, ht2, ht3, ht4, -, ht6, -⟩ := exFresh
  refine ⟨src, t, hs.box, hs.pool, ht1, ht2, ⟨_, ht6⟩, fun k hk => ?_, fun k hk => by simp [exSim],
    fun hc => ?_⟩
  · obtain rfl : k = 0 := by simp only [exSim] at hk; omega
    rw [ht3 0 hk, ht4]
    rfl
  · have := (hc 0 (by simp [exSim])).1
    rw [h1] at this
    cases this

/-- Molecules in another order: the second is taken first. -/
example : ∃ src t : St Ortho, orthoIO.Good src.box ∧ PoolOK exChain src.pool ∧
    orthoIO.Good t.box ∧ PoolOK exChain t.pool ∧ nAtomOf exChain 0 src = atomCap exChain ∧
    src.ids 0 0 = [0, 1] ∧ t.ids 0 0 ++ t.pool.res 0 = [1, 0] ∧
    ¬ FullInOrder exChain 0 src 0 t := by
  obtain ⟨src, hs, h1, -⟩ := exFull
  obtain ⟨t, ht1, ht2, ht3, ht4, -, ht6⟩ := exChainFresh
  have h0 : (0 : ℕ) < exChain.nSp := by simp [exChain]
  -- molecule 0 goes to another system, molecule 1 to this one, then molecule 0 back
  obtain ⟨p, -, hp⟩ := takeMol_ok ht2 false (S := 1) h0 ht4
  have hpr : p.res 0 = [1] := by
    have := hp.res
    rw [ht4] at this
    simpa using this.symm
  obtain ⟨q, -, hq⟩ := takeMol_ok hp.good false (S := 0) h0 hpr
  have hqr : q.res 0 = [] := by
    have := hq.res
    rw [hpr] at this
    simpa using this
  have hz : ∀ S, (t.pool.set S 0).elems = [] := by
    obtain ⟨pl, hI⟩ := ht2
    intro S
    rw [List.eq_nil_iff_forall_not_mem]
    intro i hi
    obtain ⟨hi1, hi2⟩ := (hI.set S 0 h0 i).mp hi
    have : i ∈ t.pool.res 0 := by
      rw [ht4]
      simp only [exChain] at hi1
      have : i = 0 ∨ i = 1 := by omega
      rcases this with rfl | rfl <;> simp
    have := ((hI.res 0 h0 i).mp this).2
    rw [hi2] at this
    cases this
  have hq0 : (q.set 0 0).elems = [1] := by
    rw [hq.ids, hp.idsN 0 0 (by simp), hz]; rfl
  have hq1 : (q.set 1 0).elems = [0] := by
    rw [hq.idsN 1 0 (by simp), hp.ids, hz]; rfl
  obtain ⟨pl, hI⟩ := hq.good
  obtain ⟨r, -, hI3, hr3, hr4⟩ := McPool.removeAll_ok hI 1
  have e : (r.set 0 0).elems ++ r.res 0 = [1, 0] := by
    rw [hr4 0 (by decide) 0, (hr3 0 h0).1, hq0, hq1, hqr]; rfl
  refine ⟨src, { t with pool := r }, hs.box, hs.pool, ht1, ⟨_, hI3⟩, ?_, h1, e, fun hc => ?_⟩
  · unfold nAtomOf atomCap
    simp only [exChain, List.range_one, List.map_cons, List.map_nil, List.sum_singleton, h1]
    rfl
  · have := (hc 0 h0).2
    rw [h1] at this
    simp only [St.ids, e] at this
    exact absurd this (by decide)

/-- `C58_smp_types`: the types of the atoms of a mutable species are -1 in the
species. -/
example : ∃ src t : St Ortho, orthoIO.Good src.box ∧ PoolOK exSim src.pool ∧
    Target orthoIO exSim 6 0 src 0 t ∧ (∃ ts, writeSmp orthoIO exSim 0 src = ok ts) ∧
    (∀ k < exSim.nSp, Species.SpShape (exSim.sp k) ∧ (exSim.sp k).angles.grps = []) ∧
    ∃ k < exSim.nSp, ∃ i ∈ src.ids 0 k, ∃ a < exSim.nAtom k,
      ((src.mol k i).atom a).typ ≠ exSim.atomType k a := by
  obtain ⟨src, hs, h1, -, h3, -⟩ := exSrc
  obtain ⟨t, ht1, ht2, ht3, ht4, ht5, ht6, -⟩ := exFresh
  obtain ⟨lcap, reg, hI, -⟩ := hs.links
  obtain ⟨ls, hls⟩ := wrLinks_ok (w := exSim)
    (s := { src with mol := fun _ _ => ⟨fun a => ⟨0, 0, a + 1⟩, some 0⟩ }) hI 0
  have h0 : ∀ k < exSim.nSp, k = 0 := fun k hk => by simp only [exSim] at hk; omega
  refine ⟨{ src with mol := fun _ _ => ⟨fun a => ⟨0, 0, a + 1⟩, some 0⟩ }, t, hs.box, hs.pool,
    ⟨ht1, ht2, fun k hk => ?_, 2, _, ht6, fun _ => ⟨?_, fun _ => ht5⟩⟩, ?_, fun k hk => ?_, 0,
    by simp [exSim], 0, by show 0 ∈ src.ids 0 0; rw [h1]; simp, 0, by simp [exSim], by simp [exSim]⟩
  · obtain rfl := h0 k hk
    rw [ht4, McPool.nMolecule, show (src.pool.set 0 0).elems = [0, 1] from h1]
    simp
  · show nLink src.lm ≤ 2
    omega
  · unfold writeSmp
    rw [hls, ok_bind]
    exact ⟨_, rfl⟩
  · exact ⟨⟨rfl, ⟨rfl, nofun⟩, ⟨rfl, nofun⟩, ⟨rfl, nofun⟩⟩, rfl⟩

/-- `C58_smp_no_links`: the full system without its link. -/
example : ∃ src t : St Ortho, orthoIO.Good src.box ∧ PoolOK exChain src.pool ∧
    (∃ reg, McLink.Inv 2 4 src.lm reg) ∧ nLink src.lm = 0 ∧ exChain.useLinks = true ∧
    Target orthoIO exChain 4 0 src 0 t ∧ ∀ k < exChain.nSp, ∀ i ∈ src.ids 0 k,
      ∀ a < exChain.nAtom k, ((src.mol k i).atom a).typ = exChain.atomType k a := by
  obtain ⟨src, hs, h1, -⟩ := exFull
  obtain ⟨t, ht1, ht2, ht3, ht4, ht5, ht6⟩ := exChainFresh
  refine ⟨{ src with lm := McLink.init 2 4 }, t, hs.box, hs.pool, ⟨_, McLink.Inv.init_ok⟩, rfl, rfl,
    ⟨ht1, ht2, fun k hk => ?_, 2, _, ht6, fun _ => ⟨Nat.zero_le _, fun _ => ht5⟩⟩, hs.types⟩
  obtain rfl : k = 0 := by simp only [exChain] at hk; omega
  rw [ht4, McPool.nMolecule, show (src.pool.set 0 0).elems = [0, 1] from h1]
  exact Nat.le_add_left _ _

/-- `C58_smp_angles`: a chain of three atoms with an angle. -/
example : ∃ w : Sim, 0 < w.nSp ∧ w.cfg.angle = true ∧ Species.SpShape (w.sp 0) ∧
    (w.sp 0).dihedrals.grps.length < (w.sp 0).angles.grps.length ∧
    ∃ src : St Ortho, PoolOK w src.pool ∧ ∃ ts, writeSmp orthoIO w 0 src = ok ts := by
  refine ⟨{ exChain with
      cfg := ⟨true, false⟩
      nAtom := fun _ => 3
      sp := fun _ => ⟨3, [0, 0, 0], ⟨2, [⟨[0, 1], 0⟩, ⟨[1, 2], 0⟩], fun _ => [0]⟩,
        ⟨1, [⟨[0, 1, 2], 0⟩], fun _ => []⟩, ⟨0, [], fun _ => []⟩⟩ }, by simp [exChain], rfl,
    ⟨rfl, ⟨rfl, ?_⟩, ⟨rfl, ?_⟩, ⟨rfl, nofun⟩⟩, by decide, ?_⟩
  · intro g hg
    simp only [List.mem_cons, List.not_mem_nil, or_false] at hg
    rcases hg with rfl | rfl <;> rfl
  · intro g hg
    simp only [List.mem_singleton] at hg
    rw [hg]; rfl
  · obtain ⟨src, hs, -, -, -, reg, hI⟩ := exFull
    refine ⟨src, hs.pool, ?_⟩
    obtain ⟨ls, hls⟩ := wrLinks_ok (w := { exChain with
      cfg := ⟨true, false⟩
      nAtom := fun _ => 3
      sp := fun _ => ⟨3, [0, 0, 0], ⟨2, [⟨[0, 1], 0⟩, ⟨[1, 2], 0⟩], fun _ => [0]⟩,
        ⟨1, [⟨[0, 1, 2], 0⟩], fun _ => []⟩, ⟨0, [], fun _ => []⟩⟩ }) hI 0
    unfold writeSmp
    rw [hls, ok_bind]
    exact ⟨_, rfl⟩

end Verif.McConfig
