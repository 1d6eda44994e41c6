/-
C58: files of `DdMdConfigIo`, `LammpsConfigIo` and `SmpConfigIo`.
-/
import Verif.McConfig.FormatLemmas

set_option autoImplicit false

namespace Verif.McConfig

open Verif.Cpp
open Verif.Cpp.Out
open Verif.Boundary (Vec Ortho Mono)
open Verif.McLink (nLink atomLinkCapacity)

variable {B : Type}

/-- The atoms of system `S` of `t` are those of system `S0` of `src`: equal
numbers of molecules, positions moved by `f`, velocities if `vel`. -/
structure SameAtoms (w : Sim) (vel : Bool) (f : Vec → Vec) (S0 : ℕ) (src : St B) (S : ℕ)
    (t : St B) : Prop where
  count : ∀ k < w.nSp, McPool.nMolecule t.pool S k = McPool.nMolecule src.pool S0 k
  pos : ∀ k < w.nSp, atomData w Atom.pos S k t =
    (atomData w Atom.pos S0 k src).map fun l => l.map f
  vel : vel = true → ∀ k < w.nSp, atomData w Atom.vel S k t = atomData w Atom.vel S0 k src

theorem Filled.sameAtoms {w : Sim} {vel : Bool} {f : Vec → Vec} {S S0 : ℕ} {src s t : St B}
    {eff : ℕ → ℕ → ℕ → Atom → Atom}
    (hF : Filled w S (fun k => (src.ids S0 k).length) (fun k j => molEff w k (eff k j))
      (· < w.nSp) s t)
    (hn : ∀ k < w.nSp, (src.ids S0 k).length ≤ (s.pool.res k).length)
    (h1 : ∀ k j a x, (eff k j a x).pos = f ((src.molAt S0 k j).atom a).pos)
    (h2 : vel = true → ∀ k j a x, (eff k j a x).vel = ((src.molAt S0 k j).atom a).vel) :
    SameAtoms w vel f S0 src S t := by
  refine ⟨fun k hk => ?_, fun k hk => ?_, fun hv k hk => ?_⟩
  · simp only [McPool.nMolecule]
    have := hF.ids k hk
    simp only [St.ids] at this
    rw [this, List.length_take]
    exact min_eq_left (hn k hk)
  · have := hF.obs hk (hn k hk)
      (fun m => (List.range (w.nAtom k)).map fun a => (m.atom a).pos)
      (fun m => (List.range (w.nAtom k)).map fun a => f (m.atom a).pos)
      (by
        intro j hj old
        refine List.map_congr_left fun a ha => ?_
        simp only [molEff, if_pos (List.mem_range.mp ha), h1])
    simp only [atomData, this, List.map_map, Function.comp_def]
  · exact hF.obs hk (hn k hk)
      (fun m => (List.range (w.nAtom k)).map fun a => (m.atom a).vel)
      (fun m => (List.range (w.nAtom k)).map fun a => (m.atom a).vel)
      (by
        intro j hj old
        refine List.map_congr_left fun a ha => ?_
        simp only [molEff, if_pos (List.mem_range.mp ha), h2 hv])

/-- All molecules of the simulation are in system `S0` of `src`, in the order in
which the other simulation will take its molecules. -/
def FullInOrder (w : Sim) (S0 : ℕ) (src : St B) (S : ℕ) (t : St B) : Prop :=
  ∀ k < w.nSp, (src.ids S0 k).length = w.cap k ∧ src.ids S0 k = t.ids S k ++ t.pool.res k

theorem FullInOrder.nAtom {w : Sim} {S0 S : ℕ} {src t : St B} (h : FullInOrder w S0 src S t) :
    nAtomOf w S0 src = atomCap w := by
  unfold nAtomOf atomCap
  refine congrArg List.sum (List.map_congr_left fun k hk => ?_)
  rw [(h k (List.mem_range.mp hk)).1]

/-- A full system reads its own files. -/
theorem FullInOrder.self {w : Sim} {S : ℕ} {s : St B} (hp : PoolOK w s.pool)
    (h : ∀ k < w.nSp, McPool.nMolecule s.pool S k = w.cap k) : FullInOrder w S s S s := by
  intro k hk
  refine ⟨h k hk, ?_⟩
  have hl := h k hk
  rw [McPool.nMolecule] at hl
  have hnil : s.pool.res k = [] := by
    rw [List.eq_nil_iff_forall_not_mem]
    intro i hi
    have hc := hp.res_lt hk hi
    have hall : ∀ i < w.cap k, i ∈ s.ids S k := by
      intro i hi
      have hsub : (s.ids S k).toFinset ⊆ Finset.range (w.cap k) := by
        intro x hx
        rw [List.mem_toFinset] at hx
        exact Finset.mem_range.mpr (hp.ids_lt hk hx)
      have heq := Finset.eq_of_subset_of_card_le hsub (by
        rw [List.toFinset_card_of_nodup (hp.ids_nodup S hk), Finset.card_range]
        exact hl.ge)
      have : i ∈ (s.ids S k).toFinset := by rw [heq]; exact Finset.mem_range.mpr hi
      exact List.mem_toFinset.mp this
    have hin := hall i hc
    obtain ⟨pl, hI⟩ := hp
    have e1 := ((hI.res k hk i).mp hi).2
    have e2 := ((hI.set S k hk i).mp hin).2
    rw [e1] at e2
    cases e2
  rw [hnil, List.append_nil]

theorem FullInOrder.nBond {w : Sim} {S0 S : ℕ} {src t : St B} (h : FullInOrder w S0 src S t)
    (hb : ∀ k < w.nSp, w.nBond k = (w.sp k).bonds.grps.length) :
    (groupsOf w S0 src (·.bonds)).length = bondCap w := by
  unfold groupsOf bondCap
  rw [List.length_flatMap]
  refine congrArg List.sum (List.map_congr_left fun k hk => ?_)
  simp only [List.mem_range] at hk
  rw [List.length_flatMap]
  simp only [List.length_map, List.map_const', List.sum_replicate, smul_eq_mul]
  rw [(h k hk).1, hb k hk]

theorem full_of_nAtom {w : Sim} {S0 : ℕ} {src : St B} (hp : PoolOK w src.pool)
    (hna : ∀ k < w.nSp, 0 < w.nAtom k) (h : nAtomOf w S0 src = atomCap w) :
    ∀ k < w.nSp, (src.ids S0 k).length = w.cap k := by
  have hle : ∀ k < w.nSp, (src.ids S0 k).length ≤ w.cap k := by
    intro k hk
    have hsub : (src.ids S0 k).toFinset ⊆ Finset.range (w.cap k) := by
      intro x hx
      rw [List.mem_toFinset] at hx
      exact Finset.mem_range.mpr (hp.ids_lt hk hx)
    have := Finset.card_le_card hsub
    rwa [List.toFinset_card_of_nodup (hp.ids_nodup S0 hk), Finset.card_range] at this
  by_contra hc
  push Not at hc
  obtain ⟨k, hk, hne⟩ := hc
  have hlt : nAtomOf w S0 src < atomCap w := by
    unfold nAtomOf atomCap
    refine List.sum_lt_sum _ _ (fun i hi => ?_) ⟨k, List.mem_range.mpr hk, ?_⟩
    · exact Nat.mul_le_mul_right _ (hle i (List.mem_range.mp hi))
    · exact Nat.mul_lt_mul_of_pos_right (lt_of_le_of_ne (hle k hk) hne) (hna k hk)
  omega

/-- Reading a file in which the atoms have their ids. -/
theorem ordered_read {w : Sim} {acap : ℕ} (chk : Bool) {S0 S : ℕ} {src s : St B}
    (T : ℕ → ℕ → ℕ → ℕ → Atom → List Tok)
    (f : ℕ → B → ℕ → ℕ → ℕ → Atom → List Tok → Out (Atom × List Tok)) (eff : Atom → Atom → Atom)
    (hT : ∀ k b i j a x y ws, f k b i j a y (T k i j a x ++ ws) = ok (eff x y, ws))
    (hN : ∀ k b i i' j a x y ws, w.atomId k i a ≠ w.atomId k i' a →
      f k b i j a y (T k i' j a x ++ ws) = throw)
    (hp : PoolOK w s.pool) (he : ∀ k < w.nSp, s.ids S k = [])
    (hfull : ∀ k < w.nSp, (src.ids S0 k).length = w.cap k) (rest : List Tok) :
    ((∀ k < w.nSp, s.pool.res k = src.ids S0 k) →
      ∃ t, rdSystem w chk S w.cap f (s, wrSystem w S0 src T ++ rest) = ok (t, rest) ∧
        Filled w S (fun k => (src.ids S0 k).length)
          (fun k j => molEff w k fun a => eff ((src.molAt S0 k j).atom a)) (· < w.nSp) s t) ∧
    (w.AtomsOK acap → (∀ k < w.nSp, 0 < w.nAtom k) → PoolOK w src.pool →
      (∀ k < w.nSp, (s.pool.res k).length = w.cap k) →
      (¬ ∀ k < w.nSp, s.pool.res k = src.ids S0 k) →
      rdSystem w chk S w.cap f (s, wrSystem w S0 src T ++ rest) = throw) := by
  have hcap : ∀ x : St B × List Tok, rdSystem w chk S w.cap f x =
      rdSystem w chk S (fun k => (src.ids S0 k).length) f x := by
    intro x
    unfold rdSystem
    refine loop_congr (fun k hk x => ?_) _
    simp only [hfull k (List.mem_range.mp hk)]
  obtain ⟨Z, hZ⟩ : ∃ Z, Z = atomsLeft w (fun k => (src.ids S0 k).length) (fun k j a =>
      T k ((src.ids S0 k).getD j 0) j a ((src.molAt S0 k j).atom a)) rest := ⟨_, rfl⟩
  have hZ0 : wrSystem w S0 src T ++ rest = Z 0 0 0 := by rw [hZ, wrSystem_eq]
  rw [hcap, hZ0]
  have hZa : ∀ k < w.nSp, ∀ j < (src.ids S0 k).length, ∀ a < w.nAtom k, Z k j a =
      T k ((src.ids S0 k).getD j 0) j a ((src.molAt S0 k j).atom a) ++ Z k j (a + 1) := by
    intro k hk j hj a ha
    rw [hZ, atomsLeft_atom _ _ _ _ hk hj ha]
  have hZj : ∀ k < w.nSp, ∀ j < (src.ids S0 k).length, Z k j (w.nAtom k) = Z k (j + 1) 0 := by
    intro k hk j hj
    rw [hZ]; exact atomsLeft_mol _ _ _ _ hk hj
  have hZk : ∀ k < w.nSp, Z k (src.ids S0 k).length 0 = Z (k + 1) 0 0 := by
    intro k hk
    rw [hZ]; exact atomsLeft_next _ _ _ _ hk
  have hZe : Z w.nSp 0 0 = rest := by rw [hZ, atomsLeft_end]
  refine ⟨fun hres => ?_, fun hw hna hps hlen hbad => ?_⟩
  · have := rdSystem_ok (chk := chk) (n := fun k => (src.ids S0 k).length) f Z
      (fun k j a => eff ((src.molAt S0 k j).atom a)) hp he
      (fun k hk => by rw [hres k hk]) (by
        intro k hk j hj a ha x
        rw [hZa k hk j hj a ha, hres k hk]
        exact hT _ _ _ _ _ _ _ _) hZj hZk
    rw [hZe] at this
    exact this
  · refine rdSystem_throw (chk := chk) (n := fun k => (src.ids S0 k).length) f Z
      (fun k j a => eff ((src.molAt S0 k j).atom a))
      (fun k j _ => (s.pool.res k).getD j 0 = (src.ids S0 k).getD j 0) hp he
      (fun k hk => by rw [hfull k hk, hlen k hk]) ?_ ?_ hZj hZk ?_
    · intro k hk j hj a ha hg x
      rw [hZa k hk j hj a ha, hg]
      exact hT _ _ _ _ _ _ _ _
    · intro k hk j hj a ha hg x
      rw [hZa k hk j hj a ha]
      refine hN _ _ _ _ _ _ _ _ _ fun hc => hg ?_
      have hj1 : j < (s.pool.res k).length := by rw [hlen k hk, ← hfull k hk]; exact hj
      rw [List.getD_eq_getElem _ _ hj1, List.getD_eq_getElem _ _ hj] at hc ⊢
      have h1 := hw.owner k hk _ (hp.res_lt hk (List.getElem_mem hj1)) a ha
      have h2 := hw.owner k hk _ (hps.ids_lt hk (List.getElem_mem hj)) a ha
      rw [hc, h2] at h1
      simp only [Prod.mk.injEq, true_and, and_true] at h1
      exact h1.symm
    · push Not at hbad
      obtain ⟨k, hk, hne⟩ := hbad
      by_contra hc
      push Not at hc
      apply hne
      apply List.ext_getElem
      · rw [hlen k hk, hfull k hk]
      · intro j h1 h2
        have := hc k hk j h2 0 (hna k hk)
        rwa [List.getD_eq_getElem _ _ h1, List.getD_eq_getElem _ _ h2] at this

theorem Filled.kept {w : Sim} {S S0 : ℕ} {src s t : St B} {eff : ℕ → ℕ → ℕ → Atom → Atom}
    {β : Type} (g : Atom → β)
    (hF : Filled w S (fun k => (src.ids S0 k).length) (fun k j => molEff w k (eff k j))
      (· < w.nSp) s t)
    (h : ∀ k j a x, g (eff k j a x) = g x) (k i : ℕ) :
    (t.mol k i).state = (s.mol k i).state ∧
      ∀ a, g ((t.mol k i).atom a) = g ((s.mol k i).atom a) := by
  by_cases hki : k < w.nSp ∧ i ∈ (s.pool.res k).take (src.ids S0 k).length
  · obtain ⟨hk, hi⟩ := hki
    obtain ⟨j, hj, rfl⟩ := List.getElem_of_mem hi
    have hj' := hj
    rw [List.length_take] at hj'
    have e := hF.mol k hk j (by omega)
    rw [List.getD_eq_getElem _ _ (by omega)] at e
    rw [List.getElem_take, e]
    refine ⟨rfl, fun a => ?_⟩
    show g (if a < w.nAtom k then _ else _) = _
    split
    · exact h _ _ _ _
    · rfl
  · rw [hF.molN k i hki]
    exact ⟨rfl, fun _ => rfl⟩

/-! ### DdMdConfigIo -/

theorem rdDdAtom_wr (w : Sim) (hasMol : Bool) (k : ℕ) (b : B) (i i' j a : ℕ) (x y : Atom)
    (ws : List Tok) : rdDdAtom w hasMol k b i j a y (wrDdAtom w hasMol k i' j a x ++ ws) =
      (check ((w.atomId k i' a : ℤ) = w.atomId k i a) >>= fun _ =>
        ok ({ y with pos := x.pos, vel := x.vel }, ws)) := by
  unfold rdDdAtom wrDdAtom
  cases hasMol <;>
  · simp only [List.cons_append, List.nil_append, List.append_assoc, rdInt, ok_bind, if_true,
      Bool.false_eq_true, if_false]
    refine congrArg _ (funext fun _ => ?_)
    try simp only [check_true trivial, ok_bind]
    rw [rdVec_wr, ok_bind]
    simp only [rdVec_wr, ok_bind]

/-- Sections that are written after the atoms. -/
def ddTail (w : Sim) (S : ℕ) (s : St B) : List Tok :=
  wrDdGroups w S s "BONDS" "nBond" (·.bonds) ++
    (if w.cfg.angle then wrDdGroups w S s "ANGLES" "nAngle" (·.angles) else []) ++
    (if w.cfg.dihedral then wrDdGroups w S s "DIHEDRALS" "nDihedral" (·.dihedrals) else [])

theorem readDdMd_eq {io : BoxIO B} (hl : io.Laws) (w : Sim) (hasMol : Bool) (S0 S : ℕ)
    {src t : St B} (hbs : io.Good src.box) (hbt : io.Good t.box) (rest : List Tok) :
    readDdMd io w hasMol S t (writeDdMd io w hasMol S0 src ++ rest) = (do
      check (((nAtomOf w S0 src : ℕ) : ℤ) = atomCap w)
      rdSystem w false S w.cap (rdDdAtom w hasMol) ({ t with box := src.box },
        wrSystem w S0 src (wrDdAtom w hasMol) ++ (ddTail w S0 src ++ rest))) := by
  unfold readDdMd writeDdMd
  simp only [List.append_assoc, List.cons_append, List.nil_append, rdLab, if_true, ok_bind]
  rw [rdBox_wr hl hbs hbt, ok_bind]
  simp only [if_true, ok_bind, rdCount_wr]
  simp only [ddTail, List.append_assoc]

/-- **C58, DdMd files.** If all molecules of the simulation are in the system, a
simulation that takes its molecules in the same order reads them with exact
positions and velocities.  Types and states of molecules stay as they were, and
the sections for bonds, angles and dihedrals are not read. -/
theorem C58_ddmd {io : BoxIO B} (hl : io.Laws) {w : Sim} {acap lcap : ℕ} (hasMol : Bool)
    {S0 S : ℕ} {src t : St B} (hbs : io.Good src.box) (hbt : io.Good t.box) (hp : PoolOK w t.pool)
    {reg : McLink.Reg} (hlm : McLink.Inv lcap acap t.lm reg) (ho : FullInOrder w S0 src S t)
    (rest : List Tok) :
    ∃ t', readConfig w S (readDdMd io w hasMol S) t (writeDdMd io w hasMol S0 src ++ rest) =
        ok (t', ddTail w S0 src ++ rest) ∧
      t'.box = src.box ∧ SameAtoms w true id S0 src S t' ∧
      (∀ k < w.nSp, t'.ids S k = src.ids S0 k) ∧
      (∀ S', S' ≠ S → ∀ k, t'.ids S' k = t.ids S' k) ∧
      ∀ k i, (t'.mol k i).state = (t.mol k i).state ∧
        ∀ a, ((t'.mol k i).atom a).typ = ((t.mol k i).atom a).typ := by
  obtain ⟨t1, e1, hp1, hids1, hres1, hoth1, hb1, hm1, -, -, -⟩ := emptied_ok hp S hlm
  have hres : ∀ k < w.nSp, t1.pool.res k = src.ids S0 k := fun k hk => by
    rw [hres1 k hk, (ho k hk).2]
  have hroom : ∀ k < w.nSp, (src.ids S0 k).length ≤ (t1.pool.res k).length := fun k hk => by
    rw [hres k hk]
  obtain ⟨t', e2, hF⟩ := (ordered_read (acap := acap) (w := w) false (S := S) (src := src)
    (s := { t1 with box := src.box }) (wrDdAtom w hasMol) (rdDdAtom w hasMol)
    (fun x y => { y with pos := x.pos, vel := x.vel })
    (fun k b i j a x y ws => by rw [rdDdAtom_wr, check_true rfl, ok_bind])
    (fun k b i i' j a x y ws h => by
      rw [rdDdAtom_wr, check_false (by exact_mod_cast h.symm), throw_bind])
    hp1 hids1 (fun k hk => (ho k hk).1) (ddTail w S0 src ++ rest)).1 hres
  refine ⟨t', ?_, hF.box, hF.sameAtoms hroom (fun _ _ _ _ => rfl) (fun _ _ _ _ _ => rfl),
    ?_, ?_, ?_⟩
  · unfold readConfig
    rw [e1, ok_bind, readDdMd_eq hl w hasMol S0 S hbs (by rw [hb1]; exact hbt),
      check_true (by rw [ho.nAtom]), ok_bind, e2]
  · intro k hk
    rw [hF.ids k hk]
    simp only [hres k hk, List.take_length]
  · intro S' hS' k
    exact (hF.other S' hS' k).trans (hoth1 S' hS' k)
  · intro k i
    have := hF.kept Atom.typ (fun _ _ _ _ => rfl) k i
    simp only [hm1] at this
    exact this

/-- **C58, DdMd files that cannot be read.** If the program has one system and
molecules are left in the reservoir, or the molecules have another order, the
file is rejected. -/
theorem C58_ddmd_rejected {io : BoxIO B} (hl : io.Laws) {w : Sim} {acap lcap : ℕ}
    (hw : w.AtomsOK acap) (hna : ∀ k < w.nSp, 0 < w.nAtom k) (hasMol : Bool)
    {S0 S : ℕ} {src t : St B} (hbs : io.Good src.box) (hps : PoolOK w src.pool)
    (hbt : io.Good t.box) (hp : PoolOK w t.pool)
    {reg : McLink.Reg} (hlm : McLink.Inv lcap acap t.lm reg)
    (hone : ∀ k < w.nSp, (t.ids S k ++ t.pool.res k).length = w.cap k)
    (ho : ¬ FullInOrder w S0 src S t) (rest : List Tok) :
    readConfig w S (readDdMd io w hasMol S) t (writeDdMd io w hasMol S0 src ++ rest) = throw := by
  obtain ⟨t1, e1, hp1, hids1, hres1, hoth1, hb1, hm1, -, -, -⟩ := emptied_ok hp S hlm
  unfold readConfig
  rw [e1, ok_bind, readDdMd_eq hl w hasMol S0 S hbs (by rw [hb1]; exact hbt)]
  by_cases hA : nAtomOf w S0 src = atomCap w
  · have hfull := full_of_nAtom hps hna hA
    rw [check_true (by rw [hA]), ok_bind]
    refine (ordered_read (acap := acap) (w := w) false (S := S) (src := src)
      (s := { t1 with box := src.box }) (wrDdAtom w hasMol) (rdDdAtom w hasMol)
      (fun x y => { y with pos := x.pos, vel := x.vel })
      (fun k b i j a x y ws => by rw [rdDdAtom_wr, check_true rfl, ok_bind])
      (fun k b i i' j a x y ws h => by
        rw [rdDdAtom_wr, check_false (by exact_mod_cast h.symm), throw_bind])
      hp1 hids1 hfull (ddTail w S0 src ++ rest)).2 hw hna hps ?_ ?_
    · intro k hk
      rw [← hone k hk, ← hres1 k hk]
    · intro hc
      exact ho fun k hk => ⟨hfull k hk, by rw [← hc k hk, ← hres1 k hk]⟩
  · rw [check_false (by exact_mod_cast hA), throw_bind]

/-! ### LammpsConfigIo -/

theorem rdLmAtom_wr (w : Sim) (lo : Vec) (k : ℕ) (b : B) (i i' j a : ℕ) (x y : Atom)
    (ws : List Tok) : rdLmAtom w lo k b i j a y
        (wrLmAtom w k i' j a { x with pos := x.pos + lo } ++ ws) =
      (check ((w.atomId k i' a + 1 : ℤ) = w.atomId k i a + 1) >>= fun _ =>
        ok ({ y with pos := x.pos + (2 : ℝ) • lo }, ws)) := by
  unfold rdLmAtom wrLmAtom
  simp only [List.cons_append, List.nil_append, List.append_assoc, rdInt, ok_bind]
  refine congrArg _ (funext fun _ => ?_)
  rw [rdVec_wr, ok_bind]
  simp only [ok_bind, two_smul, add_assoc]

/-- Sections that are written after the atoms. -/
def lmTail (w : Sim) (S : ℕ) (s : St B) : List Tok :=
  wrLmGroups w S s "Bonds" (·.bonds) ++
    (if w.cfg.angle then wrLmGroups w S s "Angles" (·.angles) else []) ++
    (if w.cfg.dihedral then wrLmGroups w S s "Dihedrals" (·.dihedrals) else [])

theorem rdMasses_wr (n : ℕ) (m : ℕ → ℝ) (ws : List Tok) :
    rdMasses n (((List.range n).flatMap fun t => [.int (t + 1 : ℕ), .bd (.num (m t))]) ++ ws) =
      ok ws := by
  unfold rdMasses
  obtain ⟨x, hx, hP⟩ := loop_range_ok
    (P := fun j (x : List Tok) => x = left (fun t => [Tok.int (t + 1 : ℕ), .bd (.num (m t))]) n ws j)
    (fun ws _ => do
      let (_, ws) ← rdInt ws
      let (_, ws) ← rdNum ws
      ok ws) n _ rfl (by
      rintro j hj x rfl
      rw [left_succ _ _ hj]
      exact ⟨_, rfl, rfl⟩)
  rw [left_zero] at hx
  rw [hx, hP, left_end]

theorem readLammps_eq (io : BoxIO B) (w : Sim) (lo : Vec) (S0 S : ℕ) (src t : St B)
    (rest : List Tok) :
    readLammps io w S t (writeLammpsAt io w lo S0 src ++ rest) = (do
      check (((nAtomOf w S0 src : ℕ) : ℤ) = atomCap w)
      check ((((groupsOf w S0 src (·.bonds)).length : ℕ) : ℤ) = bondCap w)
      rdSystem w true S w.cap (rdLmAtom w lo)
        ({ t with box := io.setOrtho t.box (io.lengths src.box) },
        wrSystem w S0 src (fun k i j a x => wrLmAtom w k i j a { x with pos := x.pos + lo }) ++
          (lmTail w S0 src ++ rest))) := by
  have hlo : (![lo 0, lo 1, lo 2] : Vec) = lo := by
    funext c; fin_cases c <;> rfl
  have hhi : (![lo 0 + io.lengths src.box 0, lo 1 + io.lengths src.box 1,
      lo 2 + io.lengths src.box 2] : Vec) - lo = io.lengths src.box := by
    funext c; fin_cases c <;> simp
  have hcount : ∀ nA nB nC nD (ws : List Tok), rdLmCounts w (wrLmHead w nA nB nC nD lo
      (fun c => lo c + io.lengths src.box c) ++ ws) = (do
        check ((nA : ℤ) = atomCap w)
        check ((nB : ℤ) = bondCap w)
        ok ((w.nAtomType : ℤ), (wrLmHead w nA nB nC nD lo
          (fun c => lo c + io.lengths src.box c) ++ ws).drop 26)) := by
    intro nA nB nC nD ws
    unfold rdLmCounts wrLmHead rdNumLabs
    simp only [List.append_assoc, List.cons_append, List.nil_append, rdInt, rdLab, if_true,
      ok_bind, loop_cons, loop_nil]
    refine congrArg _ (funext fun _ => congrArg _ (funext fun _ => ?_))
    rw [check_true (le_refl _), ok_bind]
    rfl
  unfold readLammps writeLammpsAt
  simp only [List.append_assoc]
  rw [hcount]
  by_cases h1 : ((nAtomOf w S0 src : ℕ) : ℤ) = atomCap w
  swap
  · rw [check_false h1]; rfl
  by_cases h2 : (((groupsOf w S0 src (·.bonds)).length : ℕ) : ℤ) = bondCap w
  swap
  · rw [check_true h1, check_false h2]; rfl
  rw [check_true h1, check_true h2, ok_bind, ok_bind, ok_bind, ok_bind, ok_bind]
  unfold wrLmHead rdBounds
  simp only [List.append_assoc, List.cons_append, List.nil_append, List.drop_succ_cons,
    List.drop_zero]
  have hm : ∀ ws : List Tok, rdMasses (w.nAtomType : ℤ).toNat
      (((List.range w.nAtomType).flatMap fun t => [.int (t + 1 : ℕ), .bd (.num 1)]) ++ ws) = ok ws :=
    fun ws => by rw [Int.toNat_natCast]; exact rdMasses_wr w.nAtomType (fun _ => 1) ws
  simp only [rdNum, rdLab, if_true, ok_bind, hm, hlo, hhi, lmTail, List.append_assoc]

/-- **C58, LAMMPS files.** If all molecules of the simulation are in the system,
a simulation that takes its molecules in the same order reads the positions of a
file whose cell begins at `lo` displaced by twice `lo`, so that only files whose
cell begins at the origin, as those of `write`, are read correctly.  The boundary
is orthorhombic with the lengths of the file; velocities, types and states of
molecules stay as they were, and sections after the atoms are not read. -/
theorem C58_lammps {io : BoxIO B} {w : Sim} {acap lcap : ℕ}
    (hb : ∀ k < w.nSp, w.nBond k = (w.sp k).bonds.grps.length) (lo : Vec)
    {S0 S : ℕ} {src t : St B} (hp : PoolOK w t.pool)
    {reg : McLink.Reg} (hlm : McLink.Inv lcap acap t.lm reg) (ho : FullInOrder w S0 src S t)
    (rest : List Tok) :
    ∃ t', readConfig w S (readLammps io w S) t (writeLammpsAt io w lo S0 src ++ rest) =
        ok (t', lmTail w S0 src ++ rest) ∧
      t'.box = io.setOrtho t.box (io.lengths src.box) ∧
      SameAtoms w false (fun r => r + (2 : ℝ) • lo) S0 src S t' ∧
      (∀ k < w.nSp, t'.ids S k = src.ids S0 k) ∧
      (∀ S', S' ≠ S → ∀ k, t'.ids S' k = t.ids S' k) ∧
      ∀ k i, (t'.mol k i).state = (t.mol k i).state ∧
        ∀ a, (((t'.mol k i).atom a).typ, ((t'.mol k i).atom a).vel) =
          (((t.mol k i).atom a).typ, ((t.mol k i).atom a).vel) := by
  obtain ⟨t1, e1, hp1, hids1, hres1, hoth1, hb1, hm1, -, -, -⟩ := emptied_ok hp S hlm
  have hres : ∀ k < w.nSp, t1.pool.res k = src.ids S0 k := fun k hk => by
    rw [hres1 k hk, (ho k hk).2]
  have hroom : ∀ k < w.nSp, (src.ids S0 k).length ≤ (t1.pool.res k).length := fun k hk => by
    rw [hres k hk]
  obtain ⟨t', e2, hF⟩ := (ordered_read (acap := acap) (w := w) true (S := S) (src := src)
    (s := { t1 with box := io.setOrtho t1.box (io.lengths src.box) })
    (fun k i j a x => wrLmAtom w k i j a { x with pos := x.pos + lo }) (rdLmAtom w lo)
    (fun x y => { y with pos := x.pos + (2 : ℝ) • lo })
    (fun k b i j a x y ws => by rw [rdLmAtom_wr, check_true rfl, ok_bind])
    (fun k b i i' j a x y ws h => by
      rw [rdLmAtom_wr, check_false (by intro hc; apply h; omega), throw_bind])
    hp1 hids1 (fun k hk => (ho k hk).1) (lmTail w S0 src ++ rest)).1 hres
  refine ⟨t', ?_, ?_, hF.sameAtoms hroom (fun _ _ _ _ => rfl) nofun, ?_, ?_, ?_⟩
  · unfold readConfig
    rw [e1, ok_bind, readLammps_eq, check_true (by rw [ho.nAtom]), ok_bind,
      check_true (by rw [ho.nBond hb]), ok_bind, e2]
  · rw [hF.box, ← hb1]
  · intro k hk
    rw [hF.ids k hk]
    simp only [hres k hk, List.take_length]
  · intro S' hS' k
    exact (hF.other S' hS' k).trans (hoth1 S' hS' k)
  · intro k i
    have := hF.kept (fun x => (x.typ, x.vel)) (fun _ _ _ _ => rfl) k i
    simp only [hm1] at this
    exact this

/-- **C58, LAMMPS files that cannot be read.** -/
theorem C58_lammps_rejected {io : BoxIO B} {w : Sim} {acap lcap : ℕ}
    (hw : w.AtomsOK acap) (hna : ∀ k < w.nSp, 0 < w.nAtom k) (lo : Vec)
    {S0 S : ℕ} {src t : St B} (hps : PoolOK w src.pool) (hp : PoolOK w t.pool)
    {reg : McLink.Reg} (hlm : McLink.Inv lcap acap t.lm reg)
    (hone : ∀ k < w.nSp, (t.ids S k ++ t.pool.res k).length = w.cap k)
    (ho : ¬ FullInOrder w S0 src S t) (rest : List Tok) :
    readConfig w S (readLammps io w S) t (writeLammpsAt io w lo S0 src ++ rest) = throw := by
  obtain ⟨t1, e1, hp1, hids1, hres1, hoth1, hb1, hm1, -, -, -⟩ := emptied_ok hp S hlm
  unfold readConfig
  rw [e1, ok_bind, readLammps_eq]
  by_cases hA : nAtomOf w S0 src = atomCap w
  swap
  · rw [check_false (by exact_mod_cast hA), throw_bind]
  have hfull := full_of_nAtom hps hna hA
  rw [check_true (by rw [hA]), ok_bind]
  by_cases hB : (((groupsOf w S0 src (·.bonds)).length : ℕ) : ℤ) = bondCap w
  swap
  · rw [check_false hB, throw_bind]
  rw [check_true hB, ok_bind]
  refine (ordered_read (acap := acap) (w := w) true (S := S) (src := src)
    (s := { t1 with box := io.setOrtho t1.box (io.lengths src.box) })
    (fun k i j a x => wrLmAtom w k i j a { x with pos := x.pos + lo }) (rdLmAtom w lo)
    (fun x y => { y with pos := x.pos + (2 : ℝ) • lo })
    (fun k b i j a x y ws => by rw [rdLmAtom_wr, check_true rfl, ok_bind])
    (fun k b i i' j a x y ws h => by
      rw [rdLmAtom_wr, check_false (by intro hc; apply h; omega), throw_bind])
    hp1 hids1 hfull (lmTail w S0 src ++ rest)).2 hw hna hps ?_ ?_
  · intro k hk
    rw [← hone k hk, ← hres1 k hk]
  · intro hc
    exact ho fun k hk => ⟨hfull k hk, by rw [← hc k hk, ← hres1 k hk]⟩

end Verif.McConfig
