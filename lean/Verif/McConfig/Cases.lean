/-
C44: positions for the two boundaries, and what files and archives do not
restore.
-/
import Verif.McConfig.Props

set_option autoImplicit false

namespace Verif.McConfig

open Verif.Cpp
open Verif.Cpp.Out
open Verif.Boundary (Vec IVec Ortho Mono InCell NearCell InUnit latVec latComb)
open Verif.McLink (LM nLink)

variable {B : Type}

/-- `P` holds for the positions of the atoms of system `S`. -/
def AllPos (w : Sim) (S : ℕ) (s : St B) (P : Vec → Prop) : Prop :=
  ∀ k < w.nSp, ∀ i ∈ s.ids S k, ∀ a < w.nAtom k, P ((s.mol k i).atom a).pos

/-! ### A simulation with one mutable species -/

/-- Three molecules of two atoms; state 0 has types 1 and 2, state 1 has types 3
and 4. -/
def exSim : Sim where
  nSp := 1
  cap _ := 3
  nAtom _ := 2
  nBond _ := 0
  nAngle _ := 0
  nDihedral _ := 0
  atomType _ _ := -1
  isMutable _ := true
  nState _ := 2
  stateType _ c a := 2 * c + a + 1
  nAtomType := 5
  nBondType := 1
  nAngleType := 0
  nDihedralType := 0
  cfg := ⟨false, false⟩
  sp _ := ⟨2, [-1, -1], ⟨0, [], fun _ => []⟩, ⟨0, [], fun _ => []⟩, ⟨0, [], fun _ => []⟩⟩
  useLinks := true
  strict := true
  atomId _ i a := 2 * i + a
  owner x := (0, x / 2, x % 2)

theorem exSim_atoms : exSim.AtomsOK 6 where
  owner k hk i hi a ha := by
    simp only [exSim] at *
    refine Prod.ext (by dsimp only; omega) (Prod.ext ?_ ?_) <;> dsimp only <;> omega
  bound k hk i hi a ha := by simp only [exSim] at *; omega

/-- Two molecules in states 1 and 0 in system 0, with a link between them; the
third is in the reservoir. -/
theorem exSrc : ∃ src : St Ortho, Source orthoIO exSim 6 0 src ∧ src.ids 0 0 = [0, 1] ∧
    src.pool.res 0 = [2] ∧ nLink src.lm = 1 ∧ AllPos exSim 0 src (InCell src.box.lengths) ∧
    OccOK exSim src ∧ molStates 0 0 src = [some 1, some 0] ∧ (src.mol 0 2).state = none := by
  have hI := McPool.Inv.init (McPool.init_ok 1 exSim.cap)
  obtain ⟨p, pl, -, h2, h3, h4⟩ := McPool.addMany_ok (S := 0) (k := 0) (by omega) [0, 1] [2]
    _ _ hI rfl
  obtain ⟨lm, h5, h6⟩ : ∃ lm, McLink.addLink true 1 2 7 (McLink.init 2 6) = ok lm ∧
      McLink.Inv 2 6 lm (McLink.Reg.put (fun _ => none) 0 (some (1, 2, 7))) := by
    refine ⟨_, rfl, ?_⟩
    exact (McLink.Reach.add (strict := true) (i := 0) (a := 1) (b := 2) (t := 7) McLink.Reach.init (by decide)
      rfl rfl).inv
  replace h4 : (p.set 0 0).elems = [0, 1] := h4
  let src : St Ortho := ⟨Ortho.default, p,
    fun _ i => ⟨fun a => ⟨fun _ => 1 / 4, fun _ => 3, if i = 0 then a + 3 else a + 1⟩,
      if i = 0 then some 1 else if i = 1 then some 0 else none⟩,
    fun _ c => if c = 0 ∨ c = 1 then 1 else 0, lm⟩
  have hlm : McLink.addLink true 1 2 7 (McLink.init 2 6) = ok lm := h5
  have hel : src.ids 0 0 = [0, 1] := h4
  refine ⟨src, ⟨.default, ⟨pl, h2⟩, ?_, 2, _, h6, fun _ => ⟨?_, ?_⟩⟩, hel, h3, ?_, ?_, ?_, ?_, rfl⟩
  · intro k hk _ i hi
    obtain rfl : k = 0 := by simp only [exSim] at hk; omega
    rw [hel] at hi
    simp only [List.mem_cons, List.not_mem_nil, or_false] at hi
    rcases hi with rfl | rfl
    · exact ⟨1, by simp [exSim], rfl⟩
    · exact ⟨0, by simp [exSim], rfl⟩
  · intro x
    have hsub : (lm.ofAtom x) ⊆ [0] := by
      intro i hi
      obtain ⟨c, z, h | h⟩ := (h6.atoms i x).mp hi <;>
      · unfold McLink.Reg.put at h
        split at h
        · next e => rw [e]; exact List.mem_singleton_self _
        · cases h
    have := ((h6.nodup x).subperm hsub).length_le
    exact this.trans (by decide)
  · intro i a b z hr
    unfold McLink.Reg.put at hr
    split at hr
    · simp only [Option.some.injEq, Prod.mk.injEq] at hr
      obtain ⟨rfl, rfl, rfl⟩ := hr
      exact ⟨⟨0, by simp [exSim], 0, by rw [hel]; simp, 1, by simp [exSim], rfl⟩,
        ⟨0, by simp [exSim], 1, by rw [hel]; simp, 0, by simp [exSim], rfl⟩⟩
    · cases hr
  · cases hlm; rfl
  · intro k hk i hi a ha j
    exact ⟨by norm_num [src], by norm_num [src, Ortho.default]⟩
  · intro k hk c
    have : k = 0 := by simp only [exSim] at hk; omega
    subst this
    rw [show exSim.cap 0 = 3 from rfl, show Finset.range 3 = {0, 1, 2} from rfl]
    simp only [src, Finset.filter_insert, Finset.filter_singleton]
    by_cases h0 : c = 0
    · subst h0; simp
    by_cases h1 : c = 1
    · subst h1; simp
    have h0' : ¬ (0 = c) := fun h => h0 h.symm
    have h1' : ¬ (1 = c) := fun h => h1 h.symm
    simp [h0, h1, h0', h1']
  · rw [molStates, hel]; rfl

/-- A simulation just after its start: no molecules in any system, no links. -/
theorem exFresh : ∃ t : St Ortho, t.box.Reach ∧ PoolOK exSim t.pool ∧ isEmpty exSim 0 t ∧
    t.pool.res 0 = [0, 1, 2] ∧ nLink t.lm = 0 ∧ McLink.Inv 2 6 t.lm (fun _ => none) ∧
    OccOK exSim t ∧ ∀ k i, (t.mol k i).state = none := by
  refine ⟨⟨Ortho.default, ⟨1, exSim.cap, fun k => if k < 1 then List.range (exSim.cap k) else [],
    fun _ _ => McPool.ASet.empty, fun _ _ => none⟩,
    fun _ _ => ⟨fun _ => ⟨0, 0, 0⟩, none⟩, fun _ _ => 0, McLink.init 2 6⟩, .default,
    ⟨_, McPool.Inv.init (McPool.init_ok 1 exSim.cap)⟩, fun k hk => rfl, rfl, rfl,
    McLink.Inv.init_ok, ?_, fun _ _ => rfl⟩
  intro k hk c
  simp

/-- One molecule in state 1. -/
theorem exOne : ∃ src : St Ortho, Source orthoIO exSim 6 0 src ∧ src.ids 0 0 = [0] ∧
    nLink src.lm = 0 ∧ molStates 0 0 src = [some 1] := by
  obtain ⟨t, h1, ⟨pl, h2⟩, h3, h4, h5, h6, -, -⟩ := exFresh
  obtain ⟨p, pl, -, h7, h8, h9⟩ := McPool.addMany_ok (S := 0) (k := 0) (by simp [exSim]) [0] [1, 2]
    _ _ h2 h4
  have hel : (p.set 0 0).elems = [0] := by
    rw [h9, show (t.pool.set 0 0).elems = [] from h3 0 (by simp [exSim])]; rfl
  refine ⟨⟨t.box, p, fun _ _ => ⟨fun a => ⟨fun _ => 1 / 4, fun _ => 3, a + 3⟩, some 1⟩,
    fun _ _ => 0, t.lm⟩, ⟨h1, ⟨pl, h7⟩, fun k hk _ i _ => ⟨1, by simp [exSim], rfl⟩, 2, _, h6,
    fun _ => ⟨fun x => ?_, fun i a b z h => by cases h⟩⟩, hel, h5, ?_⟩
  · have : t.lm.ofAtom x = [] := by
      rw [List.eq_nil_iff_forall_not_mem]
      intro i hi
      obtain ⟨c, z, h | h⟩ := (h6.atoms i x).mp hi <;> cases h
    simp only [this, List.length_nil, Nat.zero_le]
  · simp only [molStates, St.ids, hel]; rfl

/-! ### Positions -/

theorem Restored.congr {w : Sim} {md : Bool} {f g : Vec → Vec} {S0 S : ℕ} {src t : St B}
    (h : Restored w md f S0 src S t) (hfg : AllPos w S0 src fun r => f r = g r) :
    Restored w md g S0 src S t := by
  refine ⟨h.box, h.count, fun k hk => ?_, h.vel, h.state⟩
  rw [h.pos k hk]
  simp only [atomData, List.map_map]
  refine List.map_congr_left fun i hi => ?_
  simp only [Function.comp_def, List.map_map]
  exact List.map_congr_left fun a ha => hfg k hk i hi a (List.mem_range.mp ha)

theorem ortho_fix {b : Ortho} (hb : b.Reach) {r : Vec} (hr : InCell b.lengths r) :
    b.shift r = r :=
  congrArg Prod.fst (Boundary.C23_ortho_shift_fix hb r (fun _ => 0) hr)

theorem mono_fix {b : Mono} (hb : b.Reach) {r : Vec} (hr : InUnit (b.toGen r)) :
    b.shift r = r := by
  obtain ⟨h1, -, h3⟩ := Boundary.C23_mono_shift_counts hb r (fun _ => 0)
  have e : (b.shiftI r (fun _ => 0)).2 = fun _ => 0 := by
    rw [h3]
    funext i
    simp only [Boundary.shiftGenI, Boundary.shift1_fix (hr i).1 (hr i).2]
    simp
  have h0 : latComb b.bravais (fun _ => 0) = 0 := by simp [latComb]
  rw [e, h0, add_zero, add_zero] at h1
  exact h1

theorem mono_idem {b : Mono} (hb : b.Reach) {r : Vec} (hr : NearCell (fun _ => 1) (b.toGen r)) :
    b.shift (b.shift r) = b.shift r := mono_fix hb (Boundary.C23_mono_shift hb r hr).1

/-- **C44, text files, orthorhombic boundary.** Positions in the primary cell are
restored exactly. -/
theorem C44_text_ortho {w : Sim} {acap : ℕ} (hw : w.AtomsOK acap) (md : Bool) {S0 S : ℕ}
    {src t : St Ortho} (hs : Source orthoIO w acap S0 src) (ht : Target orthoIO w acap S0 src S t)
    (hin : AllPos w S0 src (InCell src.box.lengths)) (rest : List Tok) :
    ∃ ts t', writeMcMd orthoIO w md S0 src = ok ts ∧
      readConfig w S (readMcMd orthoIO w md S) t (ts ++ rest) = ok (t', rest) ∧
      Restored w md id S0 src S t' ∧
      (w.useLinks = true → linkList w S t' = linkList w S0 src) := by
  obtain ⟨ts, t', h1, h2, h3, h4, -⟩ := C44_text orthoLaws hw md hs ht rest
  exact ⟨ts, t', h1, h2, h3.congr fun k hk i hi a ha => ortho_fix hs.box (hin k hk i hi a ha), h4⟩

/-- **C44, text files, monoclinic boundary.** -/
theorem C44_text_mono {w : Sim} {acap : ℕ} (hw : w.AtomsOK acap) (md : Bool) {S0 S : ℕ}
    {src t : St Mono} (hs : Source monoIO w acap S0 src) (ht : Target monoIO w acap S0 src S t)
    (hin : AllPos w S0 src fun r => InUnit (src.box.toGen r)) (rest : List Tok) :
    ∃ ts t', writeMcMd monoIO w md S0 src = ok ts ∧
      readConfig w S (readMcMd monoIO w md S) t (ts ++ rest) = ok (t', rest) ∧
      Restored w md id S0 src S t' ∧
      (w.useLinks = true → linkList w S t' = linkList w S0 src) := by
  obtain ⟨ts, t', h1, h2, h3, h4, -⟩ := C44_text monoLaws hw md hs ht rest
  exact ⟨ts, t', h1, h2, h3.congr fun k hk i hi a ha => mono_fix hs.box (hin k hk i hi a ha), h4⟩

/-- The hypotheses of `C44_text_ortho` hold for a system that reads its own file;
two molecules in different states and a link between them are restored. -/
example : ∃ (src t' : St Ortho) (ts : List Tok), writeMcMd orthoIO exSim true 0 src = ok ts ∧
    readConfig exSim 0 (readMcMd orthoIO exSim true 0) src (ts ++ [.lab "END"]) =
      ok (t', [.lab "END"]) ∧
    Restored exSim true id 0 src 0 t' ∧ molStates 0 0 t' = [some 1, some 0] ∧
    (linkList exSim 0 t').length = 1 := by
  obtain ⟨src, h1, h2, h3, h4, h5, h6, h7, -⟩ := exSrc
  obtain ⟨ts, t', e1, e2, e3, e4⟩ :=
    C44_text_ortho exSim_atoms true h1 h1.target h5 [.lab "END"]
  refine ⟨src, t', ts, e1, e2, e3, ?_, ?_⟩
  · rw [e3.state 0 (by simp [exSim]) rfl, h7]
  · rw [e4 rfl, linkList, List.length_map]; exact h4

/-- **C44.** Positions anywhere are restored up to a period of the boundary
(orthorhombic and monoclinic). -/
theorem C44_images : (∀ b, orthoIO.Good b → ∀ r, ∃ n : IVec, r = orthoIO.shift b r +
      latVec b.lengths n) ∧
    ∀ b, monoIO.Good b → ∀ r, ∃ n : IVec, r = monoIO.shift b r + latComb b.bravais n := by
  constructor
  · intro b hb r
    obtain ⟨h1, h2⟩ := Boundary.C23_ortho_shift_counts hb r (fun _ => 0)
    refine ⟨(b.shiftI r (fun _ => 0)).2, ?_⟩
    have h0 : latVec b.lengths (fun _ => 0) = 0 := by funext i; simp [latVec]
    rw [h0, add_zero, h2] at h1
    exact h1.symm
  · intro b hb r
    obtain ⟨h1, -⟩ := Boundary.C23_mono_shift_counts hb r (fun _ => 0)
    refine ⟨(b.shiftI r (fun _ => 0)).2, ?_⟩
    have h0 : latComb b.bravais (fun _ => 0) = 0 := by simp [latComb]
    rw [h0, add_zero] at h1
    exact h1.symm

/-- **C44, archives, orthorhombic boundary.** A restart restores the state at the
time of saving, positions in the primary cell included, if no position was more
than a period outside the primary cell. -/
theorem C44_archive_ortho {w : Sim} {acap : ℕ} {S0 S : ℕ} {src t : St Ortho}
    (hs : Source orthoIO w acap S0 src) (hsp : 0 < w.nSp)
    (hin : AllPos w S0 src (NearCell src.box.lengths))
    (hb : t.box.Reach) (hp : PoolOK w t.pool) (he : isEmpty w S t)
    (hroom : ∀ k < w.nSp, McPool.nMolecule src.pool S0 k ≤ (t.pool.res k).length)
    (rest : List Val) :
    AllPos w S0 (saveConfig orthoIO w S0 src).1 (InCell src.box.lengths) ∧
    ∃ t', loadConfig orthoIO w S t ((saveConfig orthoIO w S0 src).2 ++ rest) = ok (t', rest) ∧
      Restored w true id S0 (saveConfig orthoIO w S0 src).1 S t' := by
  refine ⟨fun k hk i hi a ha => ?_, ?_⟩
  · rw [show (saveConfig orthoIO w S0 src).1 = wrapAll orthoIO w S0 src from rfl,
      (wrapAll_mol orthoIO w S0 src hk hi ha).1]
    exact (Boundary.C23_ortho_shift hs.box _ (hin k hk i hi a ha)).1
  · obtain ⟨-, t', h1, h2, -⟩ := C44_archive (S := S) orthoLaws hs hsp
      (fun k hk i hi a ha => Boundary.C23_ortho_shift_idem hs.box _ (hin k hk i hi a ha))
      hb hp he hroom rest
    exact ⟨t', h1, h2⟩

/-- **C44, archives, monoclinic boundary.** -/
theorem C44_archive_mono {w : Sim} {acap : ℕ} {S0 S : ℕ} {src t : St Mono}
    (hs : Source monoIO w acap S0 src) (hsp : 0 < w.nSp)
    (hin : AllPos w S0 src fun r => NearCell (fun _ => 1) (src.box.toGen r))
    (hb : t.box.Reach) (hp : PoolOK w t.pool) (he : isEmpty w S t)
    (hroom : ∀ k < w.nSp, McPool.nMolecule src.pool S0 k ≤ (t.pool.res k).length)
    (rest : List Val) :
    AllPos w S0 (saveConfig monoIO w S0 src).1 (fun r => InUnit (src.box.toGen r)) ∧
    ∃ t', loadConfig monoIO w S t ((saveConfig monoIO w S0 src).2 ++ rest) = ok (t', rest) ∧
      Restored w true id S0 (saveConfig monoIO w S0 src).1 S t' := by
  refine ⟨fun k hk i hi a ha => ?_, ?_⟩
  · rw [show (saveConfig monoIO w S0 src).1 = wrapAll monoIO w S0 src from rfl,
      (wrapAll_mol monoIO w S0 src hk hi ha).1]
    exact (Boundary.C23_mono_shift hs.box _ (hin k hk i hi a ha)).1
  · obtain ⟨-, t', h1, h2, -⟩ := C44_archive (S := S) monoLaws hs hsp
      (fun k hk i hi a ha => mono_idem hs.box (hin k hk i hi a ha)) hb hp he hroom rest
    exact ⟨t', h1, h2⟩

/-- The hypotheses of `C44_archive_ortho` hold for the system above and a
simulation that was just started. -/
example : ∃ (src t t' : St Ortho),
    loadConfig orthoIO exSim 0 t ((saveConfig orthoIO exSim 0 src).2 ++ [.int 5]) =
      ok (t', [.int 5]) ∧
    Restored exSim true id 0 (saveConfig orthoIO exSim 0 src).1 0 t' ∧
    molStates 0 0 t' = [some 1, some 0] ∧ nLink src.lm = 1 ∧ nLink t'.lm = 0 := by
  obtain ⟨src, h1, h2, h3, h4, h5, h6, h7, -⟩ := exSrc
  obtain ⟨t, g1, g2, g3, g4, g5, -⟩ := exFresh
  have hn : AllPos exSim 0 src (NearCell src.box.lengths) := by
    intro k hk i hi a ha j
    have := h5 k hk i hi a ha j
    constructor <;> linarith [this.1, this.2]
  have hroom : ∀ k < exSim.nSp, McPool.nMolecule src.pool 0 k ≤ (t.pool.res k).length := by
    intro k hk
    obtain rfl : k = 0 := by simp only [exSim] at hk; omega
    rw [g4, McPool.nMolecule, show (src.pool.set 0 0).elems = [0, 1] from h2]
    simp
  obtain ⟨-, t', e1, e2⟩ := C44_archive_ortho (S := 0) h1 (by simp [exSim]) hn g1 g2 g3 hroom
    [.int 5]
  obtain ⟨-, t'', e3, -, -, -, e4, -⟩ := C44_archive (S := 0) orthoLaws h1 (by simp [exSim])
    (fun k hk i hi a ha => Boundary.C23_ortho_shift_idem h1.box _ (hn k hk i hi a ha)) g1 g2 g3
    hroom [.int 5]
  rw [e1] at e3
  cases e3
  refine ⟨src, t, t', e1, e2, ?_, h4, by rw [e4, g5]⟩
  rw [e2.state 0 (by simp [exSim]) rfl, ← h7]
  exact List.map_congr_left fun i hi => wrapAll_state _ _ _ _ _ _

/-! ### What is not restored -/

/-- Archives hold no links: after a restart there are none, whatever was saved. -/
theorem C44_archive_links {io : BoxIO B} (hl : io.Laws) {w : Sim} {acap : ℕ} {S0 S : ℕ}
    {src t : St B} (hs : Source io w acap S0 src) (hsp : 0 < w.nSp)
    (hidem : AllPos w S0 src fun r => io.shift src.box (io.shift src.box r) = io.shift src.box r)
    (hb : io.Good t.box) (hp : PoolOK w t.pool) (he : isEmpty w S t)
    (hroom : ∀ k < w.nSp, McPool.nMolecule src.pool S0 k ≤ (t.pool.res k).length)
    (h0 : nLink t.lm = 0) (h1 : 0 < nLink src.lm) (rest : List Val) :
    ∃ t', loadConfig io w S t ((saveConfig io w S0 src).2 ++ rest) = ok (t', rest) ∧
      linkList w S t' = [] ∧ linkList w S0 (saveConfig io w S0 src).1 ≠ [] := by
  obtain ⟨-, t', e, -, -, -, h, -⟩ := C44_archive hl hs hsp hidem hb hp he hroom rest
  refine ⟨t', e, ?_, ?_⟩
  · rw [linkList, h, List.eq_nil_of_length_eq_zero h0, List.map_nil]
  · intro hc
    have hc2 : (linkList w S0 (saveConfig io w S0 src).1).length = nLink src.lm := by
      rw [linkList, List.length_map]; rfl
    rw [hc] at hc2
    simp only [List.length_nil] at hc2
    omega

/-- An archive with molecules of the first species cannot be loaded into a
system that has such molecules: `loadConfig` does not remove them. -/
theorem C44_archive_nonempty {io : BoxIO B} (hl : io.Laws) {w : Sim} {S0 S : ℕ} {src t : St B}
    (hsp : 0 < w.nSp) (hbs : io.Good src.box) (hb : io.Good t.box) (hp : PoolOK w t.pool)
    (hsrc : src.ids S0 0 ≠ []) (ht : t.ids S 0 ≠ []) (rest : List Val) :
    loadConfig io w S t ((saveConfig io w S0 src).2 ++ rest) = throw := by
  obtain ⟨n, hn⟩ : ∃ n, w.nSp = n + 1 := ⟨w.nSp - 1, by omega⟩
  obtain ⟨N, hN⟩ : ∃ N, (src.ids S0 0).length = N + 1 :=
    ⟨(src.ids S0 0).length - 1, by have := List.length_pos_iff.mpr hsrc; omega⟩
  unfold loadConfig saveConfig
  simp only [List.append_assoc]
  rw [ldBox_sv hl (b := (wrapAll io w S0 src).box) hbs hb, ok_bind]
  · have htk : ∀ s : St B, s.pool = t.pool → ∀ vs, ldMol io w S 0 (s, vs) 0 = throw := by
      intro s hs vs
      unfold ldMol takeMol
      simp only [hs]
      obtain ⟨pl, hI⟩ := hp
      rcases hI.get hsp with ⟨-, hg⟩ | ⟨i, l, hr, hg, hi, -, hI2⟩
      · rw [hg]; rfl
      · obtain ⟨p2, ha, hI3, hel⟩ := hI2.add (S := S) hsp hi (McPool.move_self _ _ _ _)
        have hel2 : (p2.set S 0).elems = t.ids S 0 ++ [i] := hel
        have hlen := List.length_pos_iff.mpr ht
        rw [hg, ok_bind]
        simp only [ha, ok_bind, hel2, if_true]
        rw [require_true (by simp), ok_bind, check_false]
        · rfl
        · rw [List.getD_append _ _ _ _ hlen, List.getD_eq_getElem _ _ hlen]
          intro hc
          have hm : i ∈ t.ids S 0 := hc ▸ List.getElem_mem hlen
          have hm2 : i ∈ t.pool.res 0 := by rw [hr]; exact List.mem_cons_self
          have e1 := ((hI.res 0 hsp i).mp hm2).2
          have e2 := ((hI.set S 0 hsp i).mp hm).2
          rw [e1] at e2
          cases e2
    have hN2 : ((wrapAll io w S0 src).ids S0 0).length = N + 1 := hN
    have hs0 : ∀ (b : B) (vs : List Val), ldSpecies io w S ({ t with box := b },
        .int (0 : ℕ) :: .int (N + 1 : ℕ) :: vs) 0 = throw := by
      intro b vs
      unfold ldSpecies
      simp only [ldInt, ok_bind]
      rw [check_true trivial, ok_bind, Int.toNat_natCast, List.range_succ_eq_map, loop,
        htk { t with box := b } rfl, throw_bind]
    rw [hn, List.range_succ_eq_map]
    simp only [List.flatMap_cons, svSpecies, hN2, List.cons_append, List.append_assoc,
      List.nil_append]
    rw [loop, hs0, throw_bind]
  · intro x r hc
    rw [hn, List.range_succ_eq_map] at hc
    simp [svSpecies] at hc

/-- Molecules of a mutable species that are not in the system: the occupancies
of states after reading a configuration are those of the molecules that were
read, and of the molecules elsewhere — in reservoirs too — in the states they
were in before. -/
theorem C44_occupancy {io : BoxIO B} (hl : io.Laws) {w : Sim} {acap : ℕ} (hw : w.AtomsOK acap)
    (md : Bool) {S0 S : ℕ} {src t : St B} (hs : Source io w acap S0 src)
    (ht : Target io w acap S0 src S t) (ho : OccOK w t) (rest : List Tok) :
    ∃ ts t', writeMcMd io w md S0 src = ok ts ∧
      readConfig w S (readMcMd io w md S) t (ts ++ rest) = ok (t', rest) ∧
      ∀ k < w.nSp, w.isMutable k = true → ∀ c,
        t'.occ k c = (molStates S0 k src).count (some c) +
          ((Finset.range (w.cap k)).filter fun i =>
            i ∉ t'.ids S k ∧ (t.mol k i).state = some c).card := by
  obtain ⟨ts, t', h1, h2, h3, -, h5, -, h7, -, h9⟩ := C44_text hl hw md hs ht rest
  refine ⟨ts, t', h1, h2, fun k hk hm c => ?_⟩
  rw [h7 ho k hk c, ← h3.state k hk hm]
  have hnd := h5.ids_nodup S hk
  have hlt : ∀ i ∈ t'.ids S k, i < w.cap k := fun i hi => h5.ids_lt hk hi
  have e1 : (molStates S k t').count (some c) =
      ((Finset.range (w.cap k)).filter fun i =>
        i ∈ t'.ids S k ∧ (t'.mol k i).state = some c).card := by
    rw [molStates, List.count_eq_countP, List.countP_map, List.countP_eq_length_filter,
      ← List.toFinset_card_of_nodup (hnd.filter _)]
    congr 1
    ext i
    simp only [List.mem_toFinset, List.mem_filter, Function.comp_apply, beq_iff_eq,
      Finset.mem_filter, Finset.mem_range]
    exact ⟨fun h => ⟨hlt i h.1, h⟩, fun h => h.2⟩
  have e2 : ((Finset.range (w.cap k)).filter fun i =>
        i ∉ t'.ids S k ∧ (t.mol k i).state = some c) =
      (Finset.range (w.cap k)).filter fun i =>
        i ∉ t'.ids S k ∧ (t'.mol k i).state = some c := by
    refine Finset.filter_congr fun i _ => ?_
    refine and_congr_right fun hi => ?_
    rw [h9 k i fun h => hi h.2]
  rw [e1, e2, ← Nat.cast_add, ← Finset.card_union_of_disjoint]
  · congr 2
    ext i
    simp only [Finset.mem_union, Finset.mem_filter]
    tauto
  · rw [Finset.disjoint_left]
    intro i
    simp only [Finset.mem_filter]
    tauto

/-- After a system with molecules in states 1 and 0 has read a file with one
molecule in state 1, no molecule of any system is in state 0 but its occupancy
is 1. -/
theorem C44_occupancy_stale : ∃ (src t t' : St Ortho) (ts : List Tok),
    Source orthoIO exSim 6 0 src ∧ Source orthoIO exSim 6 0 t ∧ OccOK exSim t ∧
    writeMcMd orthoIO exSim false 0 src = ok ts ∧
    readConfig exSim 0 (readMcMd orthoIO exSim false 0) t ts = ok (t', []) ∧
    molStates 0 0 t' = [some 1] ∧ t'.occ 0 0 = 1 := by
  obtain ⟨src, h1, h2, h3, h4⟩ := exOne
  obtain ⟨t, g1, g2, g3, g4, g5, g6, g7, g8⟩ := exSrc
  have hT : Target orthoIO exSim 6 0 src 0 t := by
    have hT := g1.target
    refine ⟨hT.box, hT.pool, fun k hk => ?_, ?_⟩
    · obtain rfl : k = 0 := by simp only [exSim] at hk; omega
      rw [McPool.nMolecule, show (src.pool.set 0 0).elems = [0] from h2, g3]
      simp
    · obtain ⟨lcap, reg, a, b⟩ := hT.links
      exact ⟨lcap, reg, a, fun h => ⟨by rw [h3]; omega, (b h).2⟩⟩
  obtain ⟨ts, t', e1, e2, e3, -, -, -, -, -, -, e4, -⟩ :=
    text_core orthoLaws exSim_atoms false h1 hT []
  obtain ⟨ts', t'', e5, e6, e7⟩ := C44_occupancy orthoLaws exSim_atoms false h1 hT g6 []
  rw [e1] at e5
  cases e5
  rw [e2] at e6
  cases e6
  rw [List.append_nil] at e2
  refine ⟨src, t, t', ts, h1, g1, g6, e1, e2, ?_, ?_⟩
  · rw [e3.state 0 (by simp [exSim]) rfl, h4]
  · have hid : t'.ids 0 0 = [0] := by
      rw [e4 0 (by simp [exSim]), g2, h2]; rfl
    have hst : (t.mol 0 0).state = some 1 ∧ (t.mol 0 1).state = some 0 := by
      rw [molStates, g2] at g7
      simpa using g7
    rw [e7 0 (by simp [exSim]) rfl 0, h4, hid, show exSim.cap 0 = 3 from rfl,
      show Finset.range 3 = {0, 1, 2} from rfl]
    simp [Finset.filter_insert, Finset.filter_singleton, hst.1, hst.2, g8]

/-- A molecule of a mutable species without a state — as the readers of other
formats leave them — is written with state -1, with which `readMoleculeState`
then indexes an array. -/
theorem C44_null_state {io : BoxIO B} (hl : io.Laws) {w : Sim} (md : Bool) {S0 S : ℕ}
    {src t : St B} (hsp : 0 < w.nSp) (hbs : io.Good src.box) (hb : io.Good t.box)
    (hp : PoolOK w t.pool) (he : isEmpty w S t) (hr : t.pool.res 0 ≠ [])
    (hsrc : src.ids S0 0 ≠ []) (hmu : w.isMutable 0 = true)
    (hnull : (src.molAt S0 0 0).state = none) {ts : List Tok}
    (hw : writeMcMd io w md S0 src = ok ts) (rest : List Tok) :
    readConfig w S (readMcMd io w md S) t (ts ++ rest) = ub := by
  obtain ⟨n, hn⟩ : ∃ n, w.nSp = n + 1 := ⟨w.nSp - 1, by omega⟩
  obtain ⟨N, hN⟩ : ∃ N, (src.ids S0 0).length = N + 1 :=
    ⟨(src.ids S0 0).length - 1, by have := List.length_pos_iff.mpr hsrc; omega⟩
  obtain ⟨i, l, hil⟩ := List.exists_cons_of_ne_nil hr
  unfold writeMcMd at hw
  obtain ⟨ls, -, hw⟩ := bind_eq_ok.mp hw
  rw [ok.injEq] at hw
  subst hw
  unfold readConfig emptied
  rw [if_pos he, ok_bind]
  unfold readMcMd
  simp only [List.append_assoc, List.cons_append, List.nil_append, rdLab,
    if_true, ok_bind]
  rw [rdBox_wr hl hbs hb, ok_bind]
  simp only [if_true, ok_bind]
  have hmol : ∀ (b : B) (ws : List Tok), rdMol io w md S 0 ({ t with box := b },
      .lab "molecule" :: .int (0 : ℕ) :: .lab "stateId" :: .int (-1) :: ws) 0 = ub := by
    intro b ws
    unfold rdMol rdCount
    simp only [rdLab, rdInt, if_true, ok_bind]
    obtain ⟨p', e, -⟩ := takeMol_ok (S := S) hp true hsp hil
    rw [show (t.pool.set S 0).elems = [] from he 0 hsp, List.length_nil] at e
    rw [e, ok_bind]
    simp only
    rw [check_true trivial, ok_bind]
    unfold rdState
    rw [if_pos hmu]
    simp only [rdLab, rdInt, if_true, ok_bind, setState]
    rw [require_false (by omega)]
    rfl
  have hs0 : ∀ (b : B) (ws : List Tok), rdSpecies io w md S ({ t with box := b },
      .lab "species" :: .int (0 : ℕ) :: .lab "nMolecule" :: .int (N + 1 : ℕ) ::
        .lab "molecule" :: .int (0 : ℕ) :: .lab "stateId" :: .int (-1) :: ws) 0 = ub := by
    intro b ws
    unfold rdSpecies rdCount
    simp only [rdLab, rdInt, if_true, ok_bind]
    rw [check_true trivial, ok_bind, Int.toNat_natCast, List.range_succ_eq_map, loop, hmol,
      ub_bind]
  rw [hn, List.range_succ_eq_map]
  simp only [List.flatMap_cons, wrSpecies, wrMol, hN, List.cons_append, List.append_assoc,
    List.nil_append, List.range_succ_eq_map, hmu, if_true, hnull, stateNum]
  rw [loop, hs0, ub_bind]
  rfl

end Verif.McConfig
