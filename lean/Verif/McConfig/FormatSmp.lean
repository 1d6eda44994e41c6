/-
C58: files of `SmpConfigIo`.
-/
import Verif.McConfig.FormatProps

set_option autoImplicit false

namespace Verif.McConfig

open Verif.Cpp
open Verif.Cpp.Out
open Verif.Boundary (Vec Ortho Mono)
open Verif.McLink (nLink atomLinkCapacity)

variable {B : Type}

/-- A system whose configuration `SmpConfigIo` can write and read: species
without angles, atoms with the types of their species, and at least one link if
the program uses links. -/
structure SmpSource (io : BoxIO B) (w : Sim) (acap S0 : ℕ) (src : St B) : Prop where
  species : 0 < w.nSp
  shape : ∀ k < w.nSp, Species.SpShape (w.sp k) ∧ (w.sp k).angles.grps = []
  box : io.Good src.box
  pool : PoolOK w src.pool
  types : ∀ k < w.nSp, ∀ i ∈ src.ids S0 k, ∀ a < w.nAtom k,
    ((src.mol k i).atom a).typ = w.atomType k a
  links : ∃ lcap reg, McLink.Inv lcap acap src.lm reg ∧
    (w.useLinks = true → 0 < nLink src.lm ∧ (∀ x, (src.lm.ofAtom x).length ≤ atomLinkCapacity) ∧
      ∀ i a b z, reg i = some (a, b, z) → InSys w S0 src a ∧ InSys w S0 src b)

theorem word_takeWhile (us : List Species.Word) (ws : List Tok) :
    (((us.map Tok.ofWord ++ ws).map Tok.word?).takeWhile Option.isSome).filterMap id =
      us ++ ((ws.map Tok.word?).takeWhile Option.isSome).filterMap id := by
  induction us with
  | nil => rfl
  | cons u us ih =>
    cases u <;>
    · simp only [List.map_cons, List.cons_append, Tok.ofWord, Tok.word?]
      rw [List.takeWhile_cons_of_pos (by rfl), List.filterMap_cons_some (by rfl), ih]

/-- What follows a structure in a file: a label that is not one of those of the
structure. -/
theorem rdMatch_wr {w : Sim} {k : ℕ} (hs : Species.SpShape (w.sp k))
    (ha : (w.sp k).angles.grps = []) {l : String}
    (h1 : l ≠ "nBond") (h2 : l ≠ "nAngle") (h3 : l ≠ "nDihedral") (ws : List Tok) :
    rdMatch w k ((Species.writeStructure w.cfg (w.sp k)).map Tok.ofWord ++ (.lab l :: ws)) =
      ok (true, .lab l :: ws) := by
  unfold rdMatch
  simp only []
  rw [word_takeWhile]
  obtain ⟨us, hus⟩ : ∃ us, (((Tok.lab l :: ws).map Tok.word?).takeWhile Option.isSome).filterMap id
      = .lab l :: us := by
    refine ⟨((ws.map Tok.word?).takeWhile Option.isSome).filterMap id, ?_⟩
    simp only [List.map_cons, Tok.word?]
    rw [List.takeWhile_cons_of_pos (by rfl), List.filterMap_cons_some (by rfl)]
  rw [hus]
  obtain ⟨r, e, hr⟩ := Species.C55_match_iff_partial (cfg := w.cfg) hs hs rfl rfl rfl ha
    (.lab l :: us) (by
      intro s rest h
      simp only [List.cons.injEq, Species.Word.lab.injEq] at h
      rw [← h.1]
      exact ⟨h1, h2, h3⟩)
  rw [e, ok_bind]
  have : r = true := hr.mpr ⟨rfl, rfl, fun _ => rfl⟩
  subst this
  simp only [List.length_append, Nat.add_sub_cancel]
  rw [List.drop_left' (by simp)]

/-- One species in the SPECIES block. -/
def wrSmpOne (w : Sim) (S : ℕ) (s : St B) (k : ℕ) : List Tok :=
  [.lab "species", .int k, .lab "nMolecule", .int (s.ids S k).length] ++
    (Species.writeStructure w.cfg (w.sp k)).map Tok.ofWord

theorem rdSmpBlock_wr {w : Sim} {S0 : ℕ} {src : St B} (h0 : 0 < w.nSp)
    (hs : ∀ k < w.nSp, Species.SpShape (w.sp k) ∧ (w.sp k).angles.grps = [])
    (hc : ∀ k < w.nSp, (src.ids S0 k).length ≤ w.cap k) (ws : List Tok) :
    ∃ n, rdSmpBlock w (wrSmpSpecies w S0 src ++ (.lab "BOUNDARY" :: ws)) =
      ok (n, (nAtomOf w S0 src : ℤ), .lab "BOUNDARY" :: ws) ∧
      ∀ k < w.nSp, n k = (src.ids S0 k).length := by
  unfold rdSmpBlock wrSmpSpecies
  simp only [List.cons_append, List.nil_append, optLab, if_true, rdCount_wr, ok_bind]
  rw [check_true (by exact_mod_cast h0), ok_bind, check_true trivial, ok_bind]
  obtain ⟨x, hx, h1, h2, h3⟩ := loop_range_ok
    (P := fun j (x : (ℕ → ℤ) × ℤ × List Tok) =>
      (∀ k < j, x.1 k = (src.ids S0 k).length) ∧
      x.2.1 = ((atomsBefore w (fun k => (src.ids S0 k).length) j : ℕ) : ℤ) ∧
      x.2.2 = left (wrSmpOne w S0 src) w.nSp (.lab "BOUNDARY" :: ws) j)
    (rdSmpSpecies w) w.nSp
    (fun _ => 0, 0, left (wrSmpOne w S0 src) w.nSp (.lab "BOUNDARY" :: ws) 0)
    ⟨fun k hk => absurd hk (Nat.not_lt_zero k), rfl, rfl⟩ (by
      rintro j hj ⟨n, tot, ws'⟩ ⟨h1, rfl, rfl⟩
      obtain ⟨l, r, hl, n1, n2, n3⟩ : ∃ l r, left (wrSmpOne w S0 src) w.nSp
          (.lab "BOUNDARY" :: ws) (j + 1) = .lab l :: r ∧ l ≠ "nBond" ∧ l ≠ "nAngle" ∧
          l ≠ "nDihedral" := by
        by_cases h : j + 1 < w.nSp
        · rw [left_succ _ _ h]
          exact ⟨_, _, rfl, by decide, by decide, by decide⟩
        · have : j + 1 = w.nSp := by omega
          rw [this, left_end]
          exact ⟨_, _, rfl, by decide, by decide, by decide⟩
      unfold rdSmpSpecies
      simp only [left_succ _ _ hj, wrSmpOne, List.cons_append, List.nil_append, rdCount,
        rdLab, if_true, ok_bind, rdInt]
      rw [check_true trivial, ok_bind, check_true (by positivity), ok_bind,
        check_true (by exact_mod_cast hc j hj), ok_bind]
      rw [hl]
      rw [rdMatch_wr (hs j hj).1 (hs j hj).2 n1 n2 n3, ok_bind]
      simp only []
      rw [check_true trivial, ok_bind]
      refine ⟨_, rfl, ?_, ?_, rfl⟩
      · intro k hk
        dsimp only
        by_cases h : k = j
        · subst h; simp
        · rw [Function.update_of_ne h]; exact h1 k (by omega)
      · simp only [atomsBefore, List.range_succ, List.map_append, List.sum_append, List.map_cons,
          List.map_nil, List.sum_singleton]
        push_cast
        ring)
  rw [left_zero] at hx
  obtain ⟨n, tot, ws'⟩ := x
  dsimp only at h1 h2 h3
  subst h2 h3
  rw [left_end] at hx
  exact ⟨n, hx, h1⟩

theorem fmt_itmpv : Fmt.parse "itmpv" = ok ⟨true, true, true, true, true, false⟩ := by
  unfold Fmt.parse
  rw [check_true (by decide), ok_bind]
  rfl

theorem rdSmpAtom_wr (io : BoxIO B) (w : Sim) (k : ℕ) (b : B) (i j a c : ℕ) (x y : Atom)
    (ws : List Tok) : rdSmpAtom io w ⟨true, true, true, true, true, false⟩ k b i j a y
        (c, wrSmpAtom c k j a x ++ ws) =
      (check (x.typ = w.atomType k a) >>= fun _ =>
        ok (⟨io.shift b x.pos, x.vel, w.atomType k a⟩, (c + 1, ws))) := by
  unfold rdSmpAtom wrSmpAtom rdExpect
  simp only [List.cons_append, List.nil_append, List.append_assoc, rdInt, ok_bind, if_true,
    check_true trivial, Bool.false_eq_true, if_false]
  cases h : check (x.typ = w.atomType k a) with
  | throw => rfl
  | ub => rfl
  | ok u =>
    simp only [ok_bind, check_true trivial, rdVec_wr]

/-- The text of the atoms. -/
def smpStream (w : Sim) (S0 : ℕ) (src : St B) (rest : List Tok) (k j a : ℕ) : ℕ × List Tok :=
  (atomsBefore w (fun k => (src.ids S0 k).length) k + j * w.nAtom k + a,
    atomsLeft w (fun k => (src.ids S0 k).length) (fun k j a =>
      wrSmpAtom (atomsBefore w (fun k => (src.ids S0 k).length) k + j * w.nAtom k + a) k j a
        ((src.molAt S0 k j).atom a)) rest k j a)

theorem smpStream_mol (w : Sim) (S0 : ℕ) (src : St B) (rest : List Tok) {k j : ℕ}
    (hk : k < w.nSp) (hj : j < (src.ids S0 k).length) :
    smpStream w S0 src rest k j (w.nAtom k) = smpStream w S0 src rest k (j + 1) 0 := by
  unfold smpStream
  rw [atomsLeft_mol _ _ _ _ hk hj]
  refine Prod.ext ?_ rfl
  dsimp only
  ring

theorem smpStream_next (w : Sim) (S0 : ℕ) (src : St B) (rest : List Tok) {k : ℕ}
    (hk : k < w.nSp) :
    smpStream w S0 src rest k (src.ids S0 k).length 0 = smpStream w S0 src rest (k + 1) 0 0 := by
  unfold smpStream
  rw [atomsLeft_next _ _ _ _ hk]
  refine Prod.ext ?_ rfl
  simp only [atomsBefore, List.range_succ, List.map_append, List.sum_append, List.map_cons,
    List.map_nil, List.sum_singleton]
  ring

theorem readSmp_eq {io : BoxIO B} (hl : io.Laws) {w : Sim} {S0 S : ℕ} {src t : St B}
    (h0 : 0 < w.nSp) (hs : ∀ k < w.nSp, Species.SpShape (w.sp k) ∧ (w.sp k).angles.grps = [])
    (hbs : io.Good src.box) (hbt : io.Good t.box) (hps : PoolOK w src.pool)
    {ls ts : List Tok} (hls : wrLinks w S0 src = ok ls) (hts : writeSmp io w S0 src = ok ts)
    (rest : List Tok) :
    readSmp io w S t (ts ++ rest) =
      (rdSystem w true S (fun k => (src.ids S0 k).length)
        (rdSmpAtom io w ⟨true, true, true, true, true, false⟩)
        ({ t with box := src.box }, smpStream w S0 src (ls ++ rest) 0 0 0) >>= fun x =>
        rdSmpLinks w S x.1 x.2.2) := by
  unfold writeSmp at hts
  rw [hls, ok_bind] at hts
  simp only [ok.injEq] at hts
  subst hts
  have hc : ∀ k < w.nSp, (src.ids S0 k).length ≤ w.cap k := by
    intro k hk
    have hsub : (src.ids S0 k).toFinset ⊆ Finset.range (w.cap k) := by
      intro x hx
      rw [List.mem_toFinset] at hx
      exact Finset.mem_range.mpr (hps.ids_lt hk hx)
    have := Finset.card_le_card hsub
    rwa [List.toFinset_card_of_nodup (hps.ids_nodup S0 hk), Finset.card_range] at this
  unfold readSmp
  rw [check_true h0, ok_bind]
  simp only [List.append_assoc, List.cons_append, List.nil_append]
  obtain ⟨n, e, hn⟩ := rdSmpBlock_wr (src := src) (S0 := S0) h0 hs hc
    ((io.print src.box).map Tok.bd ++ (.lab "ATOMS" :: .lab "ordered" :: .lab "format" ::
      .lab "itmpv" :: .lab "nAtom" :: .int (nAtomOf w S0 src) ::
      (wrSystem w S0 src (fun k _ j a x =>
        wrSmpAtom (atomsBefore w (fun k => (src.ids S0 k).length) k + j * w.nAtom k + a) k j a x) ++
        (ls ++ rest))))
  rw [e, ok_bind]
  simp only [rdLab, if_true, ok_bind]
  rw [rdBox_wr hl hbs hbt, ok_bind]
  simp only [if_true, ok_bind, optLab, rdStr, rdCount, rdLab, rdInt]
  rw [check_true (by decide), ok_bind, check_true trivial, ok_bind, fmt_itmpv, ok_bind]
  simp only []
  rw [check_true trivial, ok_bind, ok_bind, wrSystem_eq]
  have : ∀ x : St B × ℕ × List Tok, rdSystem w true S (fun k => (n k).toNat)
        (rdSmpAtom io w ⟨true, true, true, true, true, false⟩) x =
      rdSystem w true S (fun k => (src.ids S0 k).length)
        (rdSmpAtom io w ⟨true, true, true, true, true, false⟩) x := by
    intro x
    unfold rdSystem
    refine loop_congr (fun k hk x => ?_) _
    simp only [hn k (List.mem_range.mp hk), Int.toNat_natCast]
  rw [this]
  simp only [smpStream, atomsBefore, List.range_zero, List.map_nil, List.sum_nil, Nat.zero_mul,
    Nat.add_zero]

theorem rdSmpLinks_eq {w : Sim} (hu : w.useLinks = true) (S : ℕ) (s : St B) {n : ℕ} (hn : 0 < n)
    (ws : List Tok) : rdSmpLinks w S s (.lab "LINKS" :: .lab "nLink" :: .int n :: ws) =
      rdLinks w S s (.lab "LINKS" :: .lab "nLink" :: .int n :: ws) := by
  unfold rdSmpLinks rdLinks
  rw [if_pos hu, if_pos hu]
  simp only [optLab, if_true, rdCount, rdLab, ok_bind, rdInt]
  rw [check_true (by exact_mod_cast hn), ok_bind]

/-- **C58, Simpatico files.** A system of species without angles whose atoms have
the types of their species (with a link, if the program uses links) is read
by every simulation with the same species and enough molecules: boundary, numbers
of molecules, velocities, types of atoms and links are restored, positions up to
wrapping into the primary cell.  The states of molecules are not stored. -/
theorem C58_smp {io : BoxIO B} (hl : io.Laws) {w : Sim} {acap : ℕ} (hw : w.AtomsOK acap)
    {S0 S : ℕ} {src t : St B} (hs : SmpSource io w acap S0 src)
    (ht : Target io w acap S0 src S t) (rest : List Tok) :
    ∃ ts t', writeSmp io w S0 src = ok ts ∧
      readConfig w S (readSmp io w S) t (ts ++ rest) = ok (t', rest) ∧
      t'.box = src.box ∧ SameAtoms w true (io.shift src.box) S0 src S t' ∧
      (∀ k < w.nSp, atomData w Atom.typ S k t' = atomData w Atom.typ S0 k src) ∧
      (w.useLinks = true → linkList w S t' = linkList w S0 src) ∧
      (∀ S', S' ≠ S → ∀ k, t'.ids S' k = t.ids S' k) ∧
      (∀ k i, (t'.mol k i).state = (t.mol k i).state) ∧
      ∀ k i, ¬ (k < w.nSp ∧ i ∈ t'.ids S k) → t'.mol k i = t.mol k i := by
  obtain ⟨lcap, reg, hIs, hsl⟩ := hs.links
  obtain ⟨lcap', reg', hIt, htl⟩ := ht.links
  obtain ⟨t1, e1, hp1, hids1, hres1, hoth1, hb1, hm1, ho1, hlm1, hlm2⟩ := emptied_ok ht.pool S hIt
  have hroom : ∀ k < w.nSp, (src.ids S0 k).length ≤ (t1.pool.res k).length := by
    intro k hk
    rw [hres1 k hk, List.length_append]
    exact ht.room k hk
  obtain ⟨ls, hls⟩ := wrLinks_ok (w := w) hIs S0
  obtain ⟨ts, hts⟩ : ∃ ts, writeSmp io w S0 src = ok ts := by
    unfold writeSmp
    rw [hls, ok_bind]
    exact ⟨_, rfl⟩
  obtain ⟨t2, e2, hF⟩ := rdSystem_ok (w := w) (chk := true) (S := S)
    (n := fun k => (src.ids S0 k).length) (rdSmpAtom io w ⟨true, true, true, true, true, false⟩)
    (smpStream w S0 src (ls ++ rest))
    (fun k j a _ => ⟨io.shift src.box ((src.molAt S0 k j).atom a).pos,
      ((src.molAt S0 k j).atom a).vel, w.atomType k a⟩)
    (s := { t1 with box := src.box }) hp1 hids1 hroom
    (by
      intro k hk j hj a ha x
      have htyp : ((src.molAt S0 k j).atom a).typ = w.atomType k a :=
        hs.types k hk _ (by rw [List.getD_eq_getElem _ _ hj]; exact List.getElem_mem hj) a ha
      unfold smpStream
      rw [atomsLeft_atom _ _ _ _ hk hj ha, rdSmpAtom_wr, check_true htyp, ok_bind]
      rfl)
    (fun k hk j hj => smpStream_mol w S0 src _ hk hj)
    (fun k hk => smpStream_next w S0 src _ hk)
  have hend : (smpStream w S0 src (ls ++ rest) w.nSp 0 0).2 = ls ++ rest := by
    simp only [smpStream, atomsLeft_end]
  have hread : readConfig w S (readSmp io w S) t (ts ++ rest) =
      rdSmpLinks w S t2 (ls ++ rest) := by
    unfold readConfig
    rw [e1, ok_bind, readSmp_eq hl hs.species hs.shape hs.box (by rw [hb1]; exact ht.box) hs.pool
      hls hts, e2, ok_bind]
    dsimp only
    rw [hend]
  have f0 : t2.box = src.box := hF.box
  have f1 : SameAtoms w true (io.shift src.box) S0 src S t2 :=
    hF.sameAtoms hroom (fun _ _ _ _ => rfl) (fun _ _ _ _ _ => rfl)
  have f2 : ∀ k < w.nSp, atomData w Atom.typ S k t2 = atomData w Atom.typ S0 k src := by
    intro k hk
    have := hF.obs hk (hroom k hk)
      (fun m => (List.range (w.nAtom k)).map fun a => (m.atom a).typ)
      (fun _ => (List.range (w.nAtom k)).map fun a => w.atomType k a)
      (by
        intro j hj old
        refine List.map_congr_left fun a ha => ?_
        simp only [molEff, if_pos (List.mem_range.mp ha)])
    simp only [atomData, this]
    refine List.map_congr_left fun i hi => List.map_congr_left fun a ha => ?_
    exact (hs.types k hk i hi a (List.mem_range.mp ha)).symm
  have f3 : ∀ S', S' ≠ S → ∀ k, t2.ids S' k = t.ids S' k :=
    fun S' hS' k => (hF.other S' hS' k).trans (hoth1 S' hS' k)
  have f4 : ∀ k i, (t2.mol k i).state = (t.mol k i).state := by
    intro k i
    have := (hF.kept (fun _ => ()) (fun _ _ _ _ => rfl) k i).1
    simp only [hm1] at this
    exact this
  have f5 : ∀ k i, ¬ (k < w.nSp ∧ i ∈ t2.ids S k) → t2.mol k i = t.mol k i := by
    intro k i hni
    have : t2.mol k i = t1.mol k i := by
      refine hF.molN k i ?_
      rintro ⟨hk, hi⟩
      exact hni ⟨hk, by rw [hF.ids k hk]; exact hi⟩
    rw [this, hm1]
  refine ⟨ts, ?_⟩
  rw [hread]
  cases hu : w.useLinks with
  | false =>
    have : ls = [] := by
      have := hls
      unfold wrLinks at this
      rw [hu] at this
      simpa using this.symm
    subst this
    refine ⟨t2, hts, ?_, f0, f1, f2, nofun, f3, f4, f5⟩
    rw [rdSmpLinks, if_neg (by rw [hu]; simp)]
    rfl
  | true =>
    obtain ⟨hpos, hdeg, hends⟩ := hsl hu
    obtain ⟨hcap, hempty⟩ := htl hu
    have hI1 : McLink.Inv lcap' acap t1.lm fun _ => none := by
      by_cases he : isEmpty w S t
      · rw [hlm2 he]
        have : reg' = fun _ => none := by
          funext i
          by_contra hc
          have := List.length_pos_of_mem ((hIt.mem i).mpr hc)
          have h0 := hempty he
          simp only [McLink.nLink] at h0
          omega
        rw [← this]; exact hIt
      · exact hlm1 hu he
    obtain ⟨ls', t3, hls', e3, h3, h4, reg3, h5⟩ := rdLinks_ok (t := t2) (S := S) hw hs.pool hF.good
      (fun k hk => f1.count k hk) hu hIs
      (by have : t2.lm = t1.lm := hF.lm
          rw [this]; exact hI1) hcap hdeg hends rest
    obtain rfl : ls = ls' := by rw [hls] at hls'; simpa using hls'
    obtain ⟨X, Y, Z, h⟩ := link_entries hIs
    have hwr := wrLinks_eq hIs hu S0 h
    have hstart : ∃ r, ls = .lab "LINKS" :: .lab "nLink" :: .int (nLink src.lm) :: r := by
      rw [hls] at hwr
      simp only [ok.injEq] at hwr
      exact ⟨_, hwr⟩
    obtain ⟨r, hr⟩ := hstart
    refine ⟨t3, hts, ?_, ?_, ?_, ?_, fun _ => h4, ?_, ?_, ?_⟩
    · rw [← e3, hr]
      exact rdSmpLinks_eq hu S t2 hpos (r ++ rest)
    · rw [h3]; exact f0
    · rw [h3]; exact ⟨f1.count, f1.pos, f1.vel⟩
    · rw [h3]; exact f2
    · rw [h3]; exact f3
    · rw [h3]; exact f4
    · rw [h3]; exact f5

/-- **C58, Simpatico files of other atoms.** If some atom has not the type that
its species has for it, as the atoms of mutable species, the file is rejected. -/
theorem C58_smp_types {io : BoxIO B} (hl : io.Laws) {w : Sim} {acap : ℕ}
    {S0 S : ℕ} {src t : St B} (h0 : 0 < w.nSp)
    (hs : ∀ k < w.nSp, Species.SpShape (w.sp k) ∧ (w.sp k).angles.grps = [])
    (hbs : io.Good src.box) (hps : PoolOK w src.pool)
    (ht : Target io w acap S0 src S t)
    (hbad : ∃ k < w.nSp, ∃ i ∈ src.ids S0 k, ∃ a < w.nAtom k,
      ((src.mol k i).atom a).typ ≠ w.atomType k a)
    {ts : List Tok} (hts : writeSmp io w S0 src = ok ts) (rest : List Tok) :
    readConfig w S (readSmp io w S) t (ts ++ rest) = throw := by
  obtain ⟨lcap', reg', hIt, htl⟩ := ht.links
  obtain ⟨t1, e1, hp1, hids1, hres1, hoth1, hb1, hm1, ho1, hlm1, hlm2⟩ := emptied_ok ht.pool S hIt
  have hroom : ∀ k < w.nSp, (src.ids S0 k).length ≤ (t1.pool.res k).length := by
    intro k hk
    rw [hres1 k hk, List.length_append]
    exact ht.room k hk
  obtain ⟨ls, hls⟩ : ∃ ls, wrLinks w S0 src = ok ls := by
    have := hts
    unfold writeSmp at this
    obtain ⟨ls, h, -⟩ := bind_eq_ok.mp this
    exact ⟨ls, h⟩
  unfold readConfig
  rw [e1, ok_bind, readSmp_eq hl h0 hs hbs (by rw [hb1]; exact ht.box) hps hls hts]
  rw [rdSystem_throw (w := w) (chk := true) (S := S)
    (n := fun k => (src.ids S0 k).length) (rdSmpAtom io w ⟨true, true, true, true, true, false⟩)
    (smpStream w S0 src (ls ++ rest))
    (fun k j a _ => ⟨io.shift src.box ((src.molAt S0 k j).atom a).pos,
      ((src.molAt S0 k j).atom a).vel, w.atomType k a⟩)
    (fun k j a => ((src.molAt S0 k j).atom a).typ = w.atomType k a)
    (s := { t1 with box := src.box }) hp1 hids1 hroom
    (by
      intro k hk j hj a ha hg x
      unfold smpStream
      rw [atomsLeft_atom _ _ _ _ hk hj ha, rdSmpAtom_wr, check_true hg, ok_bind]
      rfl)
    (by
      intro k hk j hj a ha hg x
      unfold smpStream
      rw [atomsLeft_atom _ _ _ _ hk hj ha, rdSmpAtom_wr, check_false hg, throw_bind])
    (fun k hk j hj => smpStream_mol w S0 src _ hk hj)
    (fun k hk => smpStream_next w S0 src _ hk)
    (by
      obtain ⟨k, hk, i, hi, a, ha, h⟩ := hbad
      obtain ⟨j, hj, rfl⟩ := List.getElem_of_mem hi
      refine ⟨k, hk, j, hj, a, ha, ?_⟩
      have e : (src.ids S0 k).getD j 0 = (src.ids S0 k)[j] := List.getD_eq_getElem _ _ hj
      rw [St.molAt, e]
      exact h), throw_bind]

/-- **C58, Simpatico files without links.** A program that uses links rejects its
own files if there are no links. -/
theorem C58_smp_no_links {io : BoxIO B} (hl : io.Laws) {w : Sim} {acap lcap : ℕ}
    {S0 S : ℕ} {src t : St B} (hu : w.useLinks = true) (h0 : 0 < w.nSp)
    (hs : ∀ k < w.nSp, Species.SpShape (w.sp k) ∧ (w.sp k).angles.grps = [])
    (hbs : io.Good src.box) (hps : PoolOK w src.pool) {reg : McLink.Reg}
    (hI : McLink.Inv lcap acap src.lm reg) (hno : nLink src.lm = 0)
    (htyp : ∀ k < w.nSp, ∀ i ∈ src.ids S0 k, ∀ a < w.nAtom k,
      ((src.mol k i).atom a).typ = w.atomType k a)
    (ht : Target io w acap S0 src S t) (rest : List Tok) :
    ∃ ts, writeSmp io w S0 src = ok ts ∧
      readConfig w S (readSmp io w S) t (ts ++ rest) = throw := by
  obtain ⟨lcap', reg', hIt, htl⟩ := ht.links
  obtain ⟨t1, e1, hp1, hids1, hres1, hoth1, hb1, hm1, ho1, hlm1, hlm2⟩ := emptied_ok ht.pool S hIt
  have hroom : ∀ k < w.nSp, (src.ids S0 k).length ≤ (t1.pool.res k).length := by
    intro k hk
    rw [hres1 k hk, List.length_append]
    exact ht.room k hk
  obtain ⟨X, Y, Z, h⟩ := link_entries hI
  have hls := wrLinks_eq hI hu S0 h
  rw [hno] at hls
  obtain ⟨ts, hts⟩ : ∃ ts, writeSmp io w S0 src = ok ts := by
    unfold writeSmp
    rw [hls, ok_bind]
    exact ⟨_, rfl⟩
  refine ⟨ts, hts, ?_⟩
  obtain ⟨ls, hls0⟩ : ∃ ls, wrLinks w S0 src = ok ls := ⟨_, hls⟩
  obtain ⟨t2, e2, hF⟩ := rdSystem_ok (w := w) (chk := true) (S := S)
    (n := fun k => (src.ids S0 k).length) (rdSmpAtom io w ⟨true, true, true, true, true, false⟩)
    (smpStream w S0 src (ls ++ rest))
    (fun k j a _ => ⟨io.shift src.box ((src.molAt S0 k j).atom a).pos,
      ((src.molAt S0 k j).atom a).vel, w.atomType k a⟩)
    (s := { t1 with box := src.box }) hp1 hids1 hroom
    (by
      intro k hk j hj a ha x
      have htyp : ((src.molAt S0 k j).atom a).typ = w.atomType k a :=
        htyp k hk _ (by rw [List.getD_eq_getElem _ _ hj]; exact List.getElem_mem hj) a ha
      unfold smpStream
      rw [atomsLeft_atom _ _ _ _ hk hj ha, rdSmpAtom_wr, check_true htyp, ok_bind]
      rfl)
    (fun k hk j hj => smpStream_mol w S0 src _ hk hj)
    (fun k hk => smpStream_next w S0 src _ hk)
  unfold readConfig
  rw [e1, ok_bind, readSmp_eq hl h0 hs hbs (by rw [hb1]; exact ht.box) hps hls0 hts, e2, ok_bind]
  simp only [smpStream, atomsLeft_end]
  rw [hls] at hls0
  simp only [ok.injEq] at hls0
  rw [← hls0]
  unfold rdSmpLinks
  rw [if_pos hu]
  simp only [List.cons_append, optLab, if_true, rdCount_wr, ok_bind]
  rw [check_false (by norm_num), throw_bind]

theorem loop_ub {σ : Type} {f : σ → ℕ → Out σ} {n j : ℕ} (hj : j < n) {s t : σ}
    (h1 : loop f (List.range j) s = ok t) (h2 : f t j = ub) :
    loop f (List.range n) s = ub := by
  have : List.range n = List.range j ++ (j :: (List.range (n - j - 1)).map (· + (j + 1))) := by
    apply List.ext_getElem
    · simp; omega
    · intro i h3 h4
      rw [List.getElem_range, List.getElem_append]
      split
      · rw [List.getElem_range]
      · next h =>
        rw [List.getElem_cons]
        simp only [List.length_range] at h ⊢
        split
        · omega
        · simp only [List.getElem_map, List.getElem_range]; omega
  rw [this, loop_append, h1, ok_bind, loop_cons, h2, ub_bind]

/-- **C58, Simpatico files without a SPECIES block.** The block is optional, but
without it the program writes beyond the end of an array, whatever follows. -/
theorem C58_smp_no_species {io : BoxIO B} {w : Sim} (h0 : 0 < w.nSp) (S : ℕ) (s : St B)
    (ws : List Tok) (h : (optLab "SPECIES" ws).1 = false) : readSmp io w S s ws = ub := by
  unfold readSmp
  rw [check_true h0, ok_bind]
  have : rdSmpBlock w ws = ub := by
    unfold rdSmpBlock
    rcases he : optLab "SPECIES" ws with ⟨b, ws'⟩
    rw [he] at h
    dsimp only at h
    subst h
    dsimp only
    obtain ⟨x, hx, -⟩ := loop_range_ok (P := fun _ _ => True)
      (fun (x : (ℕ → ℤ) × ℤ × List Tok) k => do
        require (k + 1 < w.nSp)
        ok (Function.update x.1 k (w.cap k : ℤ), x.2.1 + w.cap k * w.nAtom k, x.2.2))
      (w.nSp - 1) (fun _ => 0, 0, ws') trivial (by
        intro i hi s _
        exact ⟨_, by rw [require_true (by omega), ok_bind], trivial⟩)
    refine loop_ub (j := w.nSp - 1) (by omega) hx ?_
    rw [require_false (by omega), ub_bind]
  rw [this, ub_bind]

/-- **C58, Simpatico files of species with angles.** If the first species has more
angles than dihedrals, as linear chains have, reading its own file is an access
beyond the end of an array. -/
theorem C58_smp_angles {io : BoxIO B} {w : Sim} {S0 S : ℕ} {src t : St B} (h0 : 0 < w.nSp)
    (hc : w.cfg.angle = true) (hs : Species.SpShape (w.sp 0))
    (ha : (w.sp 0).dihedrals.grps.length < (w.sp 0).angles.grps.length) (hps : PoolOK w src.pool)
    {ts : List Tok} (hts : writeSmp io w S0 src = ok ts) (rest : List Tok) :
    readSmp io w S t (ts ++ rest) = ub := by
  obtain ⟨ls, hls, e⟩ := bind_eq_ok.mp hts
  simp only [ok.injEq] at e
  subst e
  have hcap : (src.ids S0 0).length ≤ w.cap 0 := by
    have hsub : (src.ids S0 0).toFinset ⊆ Finset.range (w.cap 0) := by
      intro x hx
      rw [List.mem_toFinset] at hx
      exact Finset.mem_range.mpr (hps.ids_lt h0 hx)
    have := Finset.card_le_card hsub
    rwa [List.toFinset_card_of_nodup (hps.ids_nodup S0 h0), Finset.card_range] at this
  have hub : ∀ (l : String) (ws : List Tok), l ≠ "nBond" → l ≠ "nAngle" → l ≠ "nDihedral" →
      rdMatch w 0 ((Species.writeStructure w.cfg (w.sp 0)).map Tok.ofWord ++ (.lab l :: ws)) =
        ub := by
    intro l ws h1 h2 h3
    unfold rdMatch
    simp only []
    rw [word_takeWhile]
    rw [Species.C55_match_angles_ub hc hs ha _ (by
      intro s r he
      simp only [List.map_cons, Tok.word?] at he
      rw [List.takeWhile_cons_of_pos (by rfl), List.filterMap_cons_some (by rfl)] at he
      simp only [List.cons.injEq, Species.Word.lab.injEq] at he
      rw [← he.1]
      exact ⟨h1, h2, h3⟩), ub_bind]
  obtain ⟨m, hm⟩ : ∃ m, w.nSp = m + 1 := ⟨w.nSp - 1, by omega⟩
  unfold readSmp
  rw [check_true h0, ok_bind]
  unfold rdSmpBlock wrSmpSpecies
  simp only [List.append_assoc, List.cons_append, List.nil_append, optLab, if_true, rdCount_wr,
    ok_bind]
  rw [check_true (by exact_mod_cast h0), ok_bind, check_true trivial, ok_bind]
  have hub2 : ∀ ws, ∃ l ws', ((List.range m).map (· + 1)).flatMap (wrSmpOne w S0 src) ++
      (.lab "BOUNDARY" :: ws) = .lab l :: ws' ∧ l ≠ "nBond" ∧ l ≠ "nAngle" ∧ l ≠ "nDihedral" := by
    intro ws
    cases m with
    | zero => exact ⟨_, _, rfl, by decide, by decide, by decide⟩
    | succ m =>
      rw [List.range_succ_eq_map]
      exact ⟨_, _, rfl, by decide, by decide, by decide⟩
  rw [loop_ub (j := 0) h0 rfl, ub_bind]
  unfold rdSmpSpecies
  have hr : List.range w.nSp = 0 :: (List.range m).map (· + 1) := by
    rw [hm, List.range_succ_eq_map]
  obtain ⟨l, ws', e, n1, n2, n3⟩ := hub2 ((io.print src.box).map Tok.bd ++ (.lab "ATOMS" ::
      .lab "ordered" :: .lab "format" :: .lab "itmpv" :: .lab "nAtom" ::
      .int (nAtomOf w S0 src) :: (wrSystem w S0 src (fun k _ j a x =>
        wrSmpAtom (atomsBefore w (fun k => (src.ids S0 k).length) k + j * w.nAtom k + a) k j a x) ++
        (ls ++ rest))))
  have hone : wrSmpOne w S0 src = fun k => .lab "species" :: .int k :: .lab "nMolecule" ::
      .int (src.ids S0 k).length :: (Species.writeStructure w.cfg (w.sp k)).map Tok.ofWord := rfl
  rw [hone] at e
  simp only [hr, List.flatMap_cons, List.cons_append, List.append_assoc, rdCount_wr, ok_bind]
  rw [check_true trivial, ok_bind, check_true (by positivity), ok_bind,
    check_true (by exact_mod_cast hcap), ok_bind, e, hub l ws' n1 n2 n3, ub_bind]

end Verif.McConfig
