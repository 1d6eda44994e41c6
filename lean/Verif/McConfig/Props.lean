/-
C44: configuration files and archives restore boundary, molecules, positions,
velocities, states of molecules and links.
-/
import Verif.McConfig.Text
import Verif.McConfig.Links

set_option autoImplicit false

namespace Verif.McConfig

open Verif.Cpp
open Verif.Cpp.Out
open Verif.Boundary (Vec Ortho Mono)
open Verif.McLink (Reg nLink atomLinkCapacity)

variable {B : Type}

/-! ### What an observer of a system sees -/

/-- Data of all atoms of species `k`, molecule by molecule. -/
def atomData {β : Type} (w : Sim) (f : Atom → β) (S k : ℕ) (s : St B) : List (List β) :=
  (s.ids S k).map fun i => (List.range (w.nAtom k)).map fun a => f ((s.mol k i).atom a)

/-- State ids of the molecules of species `k`. -/
def molStates (S k : ℕ) (s : St B) : List (Option ℕ) := (s.ids S k).map fun i => (s.mol k i).state

/-- System `S` of `t` is system `S0` of `src`, with positions moved by `f`; `md`
tells whether velocities are compared. -/
structure Restored (w : Sim) (md : Bool) (f : Vec → Vec) (S0 : ℕ) (src : St B) (S : ℕ)
    (t : St B) : Prop where
  box : t.box = src.box
  count : ∀ k < w.nSp, McPool.nMolecule t.pool S k = McPool.nMolecule src.pool S0 k
  pos : ∀ k < w.nSp, atomData w Atom.pos S k t =
    (atomData w Atom.pos S0 k src).map fun l => l.map f
  vel : md = true → ∀ k < w.nSp, atomData w Atom.vel S k t = atomData w Atom.vel S0 k src
  state : ∀ k < w.nSp, w.isMutable k = true → molStates S k t = molStates S0 k src

/-- A system whose configuration can be written and read: its boundary can be
reached through the interface of the boundary, molecules of mutable species have
a state, links join atoms of the system and no atom has more links than the
program admits. -/
structure Source (io : BoxIO B) (w : Sim) (acap S0 : ℕ) (src : St B) : Prop where
  box : io.Good src.box
  pool : PoolOK w src.pool
  state : ∀ k < w.nSp, w.isMutable k = true → ∀ i ∈ src.ids S0 k,
    ∃ c < w.nState k, (src.mol k i).state = some c
  links : ∃ lcap reg, McLink.Inv lcap acap src.lm reg ∧
    (w.useLinks = true → (∀ x, (src.lm.ofAtom x).length ≤ atomLinkCapacity) ∧
      ∀ i a b z, reg i = some (a, b, z) → InSys w S0 src a ∧ InSys w S0 src b)

/-- A simulation that can take the configuration: enough molecules are in its
reservoirs or in the system that is replaced, and enough links. -/
structure Target (io : BoxIO B) (w : Sim) (acap S0 : ℕ) (src : St B) (S : ℕ) (t : St B) :
    Prop where
  box : io.Good t.box
  pool : PoolOK w t.pool
  room : ∀ k < w.nSp, McPool.nMolecule src.pool S0 k ≤
    McPool.nMolecule t.pool S k + (t.pool.res k).length
  links : ∃ lcap reg, McLink.Inv lcap acap t.lm reg ∧
    (w.useLinks = true → nLink src.lm ≤ lcap ∧ (isEmpty w S t → nLink t.lm = 0))

theorem Source.hasState {io : BoxIO B} {w : Sim} {acap S0 : ℕ} {src : St B}
    (h : Source io w acap S0 src) :
    ∀ k < w.nSp, ∀ j < (src.ids S0 k).length, HasState w k (src.molAt S0 k j) := by
  intro k hk j hj hm
  refine h.state k hk hm _ ?_
  rw [List.getD_eq_getElem _ _ hj]
  exact List.getElem_mem hj

theorem Filled.obs {β : Type} {w : Sim} {S S0 : ℕ} {src s t : St B} {eff : ℕ → ℕ → Mol → Mol}
    (hF : Filled w S (fun k => (src.ids S0 k).length) eff (· < w.nSp) s t)
    {k : ℕ} (hk : k < w.nSp) (hn : (src.ids S0 k).length ≤ (s.pool.res k).length)
    (g h : Mol → β)
    (he : ∀ j < (src.ids S0 k).length, ∀ old, g (eff k j old) = h (src.molAt S0 k j)) :
    (t.ids S k).map (fun i => g (t.mol k i)) = (src.ids S0 k).map fun i => h (src.mol k i) := by
  refine List.ext_getElem ?_ fun j h1 h2 => ?_
  · rw [List.length_map, List.length_map, hF.ids k hk, List.length_take]; omega
  · have hj : j < (src.ids S0 k).length := by simpa using h2
    have hj2 : j < (s.pool.res k).length := by omega
    have e := hF.mol k hk j hj
    rw [List.getD_eq_getElem _ _ hj2] at e
    have hid : (t.ids S k)[j]'(by simpa using h1) = (s.pool.res k)[j] := by
      simp only [hF.ids k hk, List.getElem_take]
    rw [List.getElem_map, List.getElem_map, hid, e, he j hj, St.molAt,
      List.getD_eq_getElem _ _ hj]

theorem Filled.restored {io : BoxIO B} {w : Sim} {md : Bool} {S S0 : ℕ} {src s t : St B}
    (hb : s.box = src.box)
    (hF : Filled w S (fun k => (src.ids S0 k).length)
      (fun k j => readEff io s.box w md k (src.molAt S0 k j)) (· < w.nSp) s t)
    (hn : ∀ k < w.nSp, (src.ids S0 k).length ≤ (s.pool.res k).length) :
    Restored w md (io.shift src.box) S0 src S t := by
  refine ⟨hF.box.trans hb, fun k hk => ?_, fun k hk => ?_, fun hm k hk => ?_, fun k hk hm => ?_⟩
  · simp only [McPool.nMolecule]
    have := hF.ids k hk
    simp only [St.ids] at this
    rw [this, List.length_take]
    exact min_eq_left (hn k hk)
  · have := hF.obs hk (hn k hk)
      (fun m => (List.range (w.nAtom k)).map fun a => (m.atom a).pos)
      (fun m => (List.range (w.nAtom k)).map fun a => io.shift src.box (m.atom a).pos)
      (by
        intro j hj old
        refine List.map_congr_left fun a ha => ?_
        simp only [readEff, if_pos (List.mem_range.mp ha), hb])
    simp only [atomData, this, List.map_map, Function.comp_def]
  · exact hF.obs hk (hn k hk)
      (fun m => (List.range (w.nAtom k)).map fun a => (m.atom a).vel)
      (fun m => (List.range (w.nAtom k)).map fun a => (m.atom a).vel)
      (by
        intro j hj old
        refine List.map_congr_left fun a ha => ?_
        simp only [readEff, if_pos (List.mem_range.mp ha), hm, if_true])
  · exact hF.obs hk (hn k hk) Mol.state Mol.state
      (by intro j hj old; simp only [readEff, hm, if_true])

theorem text_core {io : BoxIO B} (hl : io.Laws) {w : Sim} {acap : ℕ} (hw : w.AtomsOK acap)
    (md : Bool) {S0 S : ℕ} {src t : St B} (hs : Source io w acap S0 src)
    (ht : Target io w acap S0 src S t) (rest : List Tok) :
    ∃ ts t', writeMcMd io w md S0 src = ok ts ∧
      readConfig w S (readMcMd io w md S) t (ts ++ rest) = ok (t', rest) ∧
      Restored w md (io.shift src.box) S0 src S t' ∧
      (w.useLinks = true → linkList w S t' = linkList w S0 src) ∧
      PoolOK w t'.pool ∧ (∃ lcap reg, McLink.Inv lcap acap t'.lm reg) ∧
      (OccOK w t → OccOK w t') ∧
      (∀ S', S' ≠ S → ∀ k, t'.ids S' k = t.ids S' k) ∧
      (∀ k i, ¬ (k < w.nSp ∧ i ∈ t'.ids S k) → t'.mol k i = t.mol k i) ∧
      (∀ k < w.nSp, t'.ids S k = (t.ids S k ++ t.pool.res k).take (src.ids S0 k).length) ∧
      ∀ k < w.nSp, ∀ j < (src.ids S0 k).length, t'.mol k ((t.ids S k ++ t.pool.res k).getD j 0) =
        readEff io src.box w md k (src.molAt S0 k j)
          (t.mol k ((t.ids S k ++ t.pool.res k).getD j 0)) := by
  obtain ⟨lcap, reg, hIs, hsl⟩ := hs.links
  obtain ⟨lcap', reg', hIt, htl⟩ := ht.links
  obtain ⟨t1, e1, hp1, hids1, hres1, hoth1, hb1, hm1, ho1, hlm1, hlm2⟩ := emptied_ok ht.pool S hIt
  have hroom : ∀ k < w.nSp, (src.ids S0 k).length ≤ (t1.pool.res k).length := by
    intro k hk
    rw [hres1 k hk, List.length_append]
    exact ht.room k hk
  have main : ∀ ls, ∃ t2, loop (rdSpecies io w md S) (List.range w.nSp)
        ({ t1 with box := src.box },
          ((List.range w.nSp).flatMap fun k => wrSpecies w md S0 k src) ++ ls) = ok (t2, ls) ∧
      Filled w S (fun k => (src.ids S0 k).length)
        (fun k j => readEff io src.box w md k (src.molAt S0 k j)) (· < w.nSp)
        { t1 with box := src.box } t2 := fun ls =>
    rdAll_ok (io := io) (s := { t1 with box := src.box }) md hs.hasState hp1 hids1 hroom ls
  have hread : ∀ ls, readConfig w S (readMcMd io w md S) t
      ([.lab "BOUNDARY"] ++ (io.print src.box).map Tok.bd ++ [.lab "MOLECULES"] ++
        ((List.range w.nSp).flatMap fun k => wrSpecies w md S0 k src) ++ ls) =
      (loop (rdSpecies io w md S) (List.range w.nSp)
        ({ t1 with box := src.box },
          ((List.range w.nSp).flatMap fun k => wrSpecies w md S0 k src) ++ ls) >>=
        fun x => rdLinks w S x.1 x.2) := by
    intro ls
    unfold readConfig
    rw [e1, ok_bind]
    unfold readMcMd
    simp only [List.append_assoc, List.cons_append, List.nil_append, rdLab, if_true, ok_bind]
    rw [rdBox_wr hl hs.box (by rw [hb1]; exact ht.box), ok_bind]
    simp only [if_true, ok_bind]
  have frame : ∀ t2 : St B, Filled w S (fun k => (src.ids S0 k).length)
        (fun k j => readEff io src.box w md k (src.molAt S0 k j)) (· < w.nSp)
        { t1 with box := src.box } t2 →
      Restored w md (io.shift src.box) S0 src S t2 ∧ PoolOK w t2.pool ∧ (OccOK w t → OccOK w t2) ∧
      (∀ S', S' ≠ S → ∀ k, t2.ids S' k = t.ids S' k) ∧
      (∀ k i, ¬ (k < w.nSp ∧ i ∈ t2.ids S k) → t2.mol k i = t.mol k i) ∧
      (∀ k < w.nSp, t2.ids S k = (t.ids S k ++ t.pool.res k).take (src.ids S0 k).length) ∧
      ∀ k < w.nSp, ∀ j < (src.ids S0 k).length, t2.mol k ((t.ids S k ++ t.pool.res k).getD j 0) =
        readEff io src.box w md k (src.molAt S0 k j)
          (t.mol k ((t.ids S k ++ t.pool.res k).getD j 0)) := by
    intro t2 hF
    refine ⟨hF.restored (s := { t1 with box := src.box }) rfl hroom, hF.good, fun ho => hF.occ (ho.congr ho1 (by simp [hm1])),
      fun S' hS' k => (hF.other S' hS' k).trans (hoth1 S' hS' k), fun k i hni => ?_,
      fun k hk => by rw [hF.ids k hk, ← hres1 k hk], fun k hk j hj => ?_⟩
    · have : t2.mol k i = t1.mol k i := by
        refine hF.molN k i ?_
        rintro ⟨hk, hi⟩
        exact hni ⟨hk, by rw [hF.ids k hk]; exact hi⟩
      rw [this, hm1]
    · have := hF.mol k hk j hj
      simp only [hm1, hres1 k hk] at this
      exact this
  cases hu : w.useLinks with
  | false =>
    have hwl : wrLinks w S0 src = ok [] := by simp [wrLinks, hu]
    obtain ⟨t2, e2, hF⟩ := main rest
    obtain ⟨f1, f2, f3, f4, f5, f6, f7⟩ := frame t2 hF
    refine ⟨_, t2, by rw [writeMcMd, hwl, ok_bind], ?_, f1, nofun, f2, ?_, f3, f4, f5, f6, f7⟩
    · have := hread rest
      rw [e2, ok_bind] at this
      rw [List.append_nil, this, rdLinks, if_neg (by rw [hu]; simp)]
    · have hlm : t2.lm = t1.lm := hF.lm
      rw [hlm]
      by_cases he : isEmpty w S t
      · exact ⟨lcap', reg', by rw [hlm2 he]; exact hIt⟩
      · have hlmt : t1.lm = t.lm := by
          have e1' := e1
          unfold emptied at e1'
          rw [if_neg he] at e1'
          unfold clearSystem at e1'
          rw [hu] at e1'
          obtain ⟨p, -, e3⟩ := bind_eq_ok.mp e1'
          simp only [Bool.false_eq_true, if_false, ok_bind, ok.injEq] at e3
          rw [← e3]
        exact ⟨lcap', reg', by rw [hlmt]; exact hIt⟩
  | true =>
    obtain ⟨hdeg, hend⟩ := hsl hu
    obtain ⟨hcap, hempty⟩ := htl hu
    have hI1 : McLink.Inv lcap' acap t1.lm fun _ => none := by
      by_cases he : isEmpty w S t
      · rw [hlm2 he]
        have : reg' = fun _ => none := by
          funext i
          by_contra hc
          have := List.length_pos_of_mem ((hIt.mem i).mpr hc)
          have h0 := hempty he
          simp only [McLink.nLink] at h0
          omega
        rw [← this]; exact hIt
      · exact hlm1 hu he
    obtain ⟨ls, hls⟩ := wrLinks_ok (w := w) hIs S0
    obtain ⟨t2, e2, hF⟩ := main (ls ++ rest)
    obtain ⟨f1, f2, f3, f4, f5, f6, f7⟩ := frame t2 hF
    obtain ⟨ls', t3, hls', e3, h3, h4, reg3, h5⟩ := rdLinks_ok (t := t2) (S := S) hw hs.pool f2
      (fun k hk => f1.count k hk) hu hIs
      (by have : t2.lm = t1.lm := hF.lm
          rw [this]; exact hI1) hcap hdeg hend rest
    obtain rfl : ls = ls' := by rw [hls] at hls'; simpa using hls'
    have q : ∀ {P : St B → Prop}, (∀ lm, P t2 → P { t2 with lm := lm }) → P t2 → P t3 :=
      fun h hp => by rw [h3]; exact h _ hp
    refine ⟨_, t3, by rw [writeMcMd, hls, ok_bind], ?_, ?_, fun _ => h4, ?_, ⟨_, _, h5⟩, ?_, ?_, ?_, ?_, ?_⟩
    · have := hread (ls ++ rest)
      rw [e2, ok_bind, e3] at this
      rw [← this]
      simp only [List.append_assoc]
    · exact q (P := fun t => Restored w md (io.shift src.box) S0 src S t)
        (fun _ h => ⟨h.box, h.count, h.pos, h.vel, h.state⟩) f1
    · exact q (P := fun t => PoolOK w t.pool) (fun _ h => h) f2
    · intro ho
      exact q (P := fun t => OccOK w t) (fun _ h => h) (f3 ho)
    · exact q (P := fun u => ∀ S', S' ≠ S → ∀ k, u.ids S' k = t.ids S' k) (fun _ h => h) f4
    · exact q (P := fun u => ∀ k i, ¬ (k < w.nSp ∧ i ∈ u.ids S k) → u.mol k i = t.mol k i)
        (fun _ h => h) f5
    · rw [h3]; exact f6
    · rw [h3]; exact f7

/-- **C44, text files of `McConfigIo` and `MdConfigIo`.** Whatever the numbers of
species and molecules, the boundary, the states of molecules and the links: what
`writeConfig` wrote is read by `readConfig` up to its end, into the same or
another system of the same or another simulation with the same species, whether
or not this system has molecules.  Boundary, numbers of molecules, velocities
(`MdConfigIo`), states and links are restored, positions up to wrapping into the
primary cell; the other systems are not touched, and the occupancies of states
stay what they are. -/
theorem C44_text {io : BoxIO B} (hl : io.Laws) {w : Sim} {acap : ℕ} (hw : w.AtomsOK acap)
    (md : Bool) {S0 S : ℕ} {src t : St B} (hs : Source io w acap S0 src)
    (ht : Target io w acap S0 src S t) (rest : List Tok) :
    ∃ ts t', writeMcMd io w md S0 src = ok ts ∧
      readConfig w S (readMcMd io w md S) t (ts ++ rest) = ok (t', rest) ∧
      Restored w md (io.shift src.box) S0 src S t' ∧
      (w.useLinks = true → linkList w S t' = linkList w S0 src) ∧
      PoolOK w t'.pool ∧ (∃ lcap reg, McLink.Inv lcap acap t'.lm reg) ∧
      (OccOK w t → OccOK w t') ∧
      (∀ S', S' ≠ S → ∀ k, t'.ids S' k = t.ids S' k) ∧
      ∀ k i, ¬ (k < w.nSp ∧ i ∈ t'.ids S k) → t'.mol k i = t.mol k i := by
  obtain ⟨ts, t', h1, h2, h3, h4, h5, h6, h7, h8, h9, -⟩ := text_core hl hw md hs ht rest
  exact ⟨ts, t', h1, h2, h3, h4, h5, h6, h7, h8, h9⟩

/-- A system can always take its own configuration. -/
theorem Source.target {io : BoxIO B} {w : Sim} {acap S : ℕ} {src : St B}
    (hs : Source io w acap S src) : Target io w acap S src S src := by
  obtain ⟨lcap, reg, hI, h⟩ := hs.links
  refine ⟨hs.box, hs.pool, fun k _ => Nat.le_add_right _ _, lcap, reg, hI, fun hu => ⟨?_, fun he => ?_⟩⟩
  · exact hI.good.length
  · rw [McLink.nLink, List.length_eq_zero_iff, List.eq_nil_iff_forall_not_mem]
    intro i hi
    obtain ⟨⟨a, b, z⟩, hr⟩ := Option.ne_none_iff_exists'.mp ((hI.mem i).mp hi)
    obtain ⟨k, hk, j, hj, -⟩ := ((h hu).2 i a b z hr).1
    rw [he k hk] at hj
    cases hj

/-- **C44, a system that reads its own configuration.** If the positions are in
the primary cell and the atoms of mutable molecules have the types of their
states, reading restores the state exactly: the same molecules are in the
system, in the same order, with the same contents (velocities too, even with
`McConfigIo`, which does not store them). -/
theorem C44_same {io : BoxIO B} (hl : io.Laws) {w : Sim} {acap : ℕ} (hw : w.AtomsOK acap)
    (md : Bool) {S : ℕ} {src : St B} (hs : Source io w acap S src)
    (hpos : ∀ k < w.nSp, ∀ i ∈ src.ids S k, ∀ a < w.nAtom k,
      io.shift src.box ((src.mol k i).atom a).pos = ((src.mol k i).atom a).pos)
    (htyp : ∀ k < w.nSp, w.isMutable k = true → ∀ i ∈ src.ids S k, ∀ a < w.nAtom k,
      ∀ c, (src.mol k i).state = some c → ((src.mol k i).atom a).typ = w.stateType k c a)
    (rest : List Tok) :
    ∃ ts t', writeMcMd io w md S src = ok ts ∧
      readConfig w S (readMcMd io w md S) src (ts ++ rest) = ok (t', rest) ∧
      t'.box = src.box ∧ t'.mol = src.mol ∧ (∀ S', ∀ k < w.nSp, t'.ids S' k = src.ids S' k) ∧
      (w.useLinks = true → linkList w S t' = linkList w S src) := by
  obtain ⟨ts, t', h1, h2, h3, h4, h5, h6, h7, h8, h9, h10, h11⟩ :=
    text_core hl hw md hs hs.target rest
  have hids : ∀ k < w.nSp, t'.ids S k = src.ids S k := fun k hk => by
    rw [h10 k hk, List.take_left]
  refine ⟨ts, t', h1, h2, h3.box, ?_, fun S' k hk => ?_, h4⟩
  · funext k i
    by_cases hki : k < w.nSp ∧ i ∈ t'.ids S k
    · obtain ⟨hk, hi⟩ := hki
      rw [hids k hk] at hi
      obtain ⟨j, hj, rfl⟩ := List.getElem_of_mem hi
      have e := h11 k hk j hj
      rw [List.getD_append _ _ _ _ hj, List.getD_eq_getElem _ _ hj] at e
      rw [e, St.molAt, List.getD_eq_getElem _ _ hj]
      generalize hi' : (src.ids S k)[j] = i at hi
      have hm : (src.mol k i) = ⟨(src.mol k i).atom, (src.mol k i).state⟩ := rfl
      rw [hm]
      simp only [readEff, ite_self, Mol.mk.injEq, and_true]
      funext a
      by_cases ha : a < w.nAtom k
      · rw [if_pos ha, hpos k hk i hi a ha]
        have ht : (if w.isMutable k = true then w.stateType k ((src.mol k i).state.getD 0) a
            else ((src.mol k i).atom a).typ) = ((src.mol k i).atom a).typ := by
          cases hmu : w.isMutable k with
          | false => simp
          | true =>
            obtain ⟨c, -, hc⟩ := hs.state k hk hmu i hi
            simp only [if_true]
            rw [htyp k hk hmu i hi a ha c hc, hc]
            rfl
        rw [ht]
      · rw [if_neg ha]
    · exact h9 k i hki
  · by_cases hS : S' = S
    · rw [hS]; exact hids k hk
    · exact h8 S' hS k

/-! ### Archives -/

theorem wrapAll_mol (io : BoxIO B) (w : Sim) (S : ℕ) (s : St B) {k i : ℕ} (hk : k < w.nSp)
    (hi : i ∈ s.ids S k) {a : ℕ} (ha : a < w.nAtom k) :
    ((wrapAll io w S s).mol k i).atom a =
      { (s.mol k i).atom a with pos := io.shift s.box ((s.mol k i).atom a).pos } ∧
    ((wrapAll io w S s).mol k i).state = (s.mol k i).state := by
  simp only [wrapAll, if_pos (And.intro hk hi), if_pos ha, and_self]

theorem wrapAll_state (io : BoxIO B) (w : Sim) (S : ℕ) (s : St B) (k i : ℕ) :
    ((wrapAll io w S s).mol k i).state = (s.mol k i).state := by
  simp only [wrapAll]
  split <;> rfl

/-- **C44, archives.** `saveConfig` wraps the positions of the system into the
primary cell and changes nothing else.  What it saved is loaded into an empty
system with exactly the boundary, numbers of molecules, positions, velocities
and states that the system had after saving.  (Wrapping twice has to be wrapping
once; see `C23_ortho_shift_idem`.) -/
theorem C44_archive {io : BoxIO B} (hl : io.Laws) {w : Sim} {acap : ℕ} {S0 S : ℕ} {src t : St B}
    (hs : Source io w acap S0 src) (hsp : 0 < w.nSp)
    (hidem : ∀ k < w.nSp, ∀ i ∈ src.ids S0 k, ∀ a < w.nAtom k,
      io.shift src.box (io.shift src.box ((src.mol k i).atom a).pos) =
        io.shift src.box ((src.mol k i).atom a).pos)
    (hb : io.Good t.box) (hp : PoolOK w t.pool) (he : isEmpty w S t)
    (hroom : ∀ k < w.nSp, McPool.nMolecule src.pool S0 k ≤ (t.pool.res k).length)
    (rest : List Val) :
    Restored w true (io.shift src.box) S0 src S0 (saveConfig io w S0 src).1 ∧
    ∃ t', loadConfig io w S t ((saveConfig io w S0 src).2 ++ rest) = ok (t', rest) ∧
      Restored w true id S0 (saveConfig io w S0 src).1 S t' ∧
      PoolOK w t'.pool ∧ (OccOK w t → OccOK w t') ∧ t'.lm = t.lm ∧
      (∀ S', S' ≠ S → ∀ k, t'.ids S' k = t.ids S' k) ∧
      ∀ k i, ¬ (k < w.nSp ∧ i ∈ t'.ids S k) → t'.mol k i = t.mol k i := by
  set s1 := wrapAll io w S0 src with hs1
  have hids : ∀ k, s1.ids S0 k = src.ids S0 k := fun k => rfl
  have hst : ∀ k < w.nSp, ∀ j < (s1.ids S0 k).length, HasState w k (s1.molAt S0 k j) := by
    intro k hk j hj hm
    obtain ⟨c, hc, h⟩ := hs.hasState k hk j hj hm
    exact ⟨c, hc, by rw [St.molAt, hs1, wrapAll_state]; exact h⟩
  have key : ∀ {β : Type} (f : Atom → β) (k : ℕ), k < w.nSp → atomData w f S0 k s1 =
      (src.ids S0 k).map fun i => (List.range (w.nAtom k)).map fun a =>
        f { (src.mol k i).atom a with pos := io.shift src.box ((src.mol k i).atom a).pos } := by
    intro β f k hk
    refine List.map_congr_left fun i hi => List.map_congr_left fun a ha => ?_
    rw [hs1, (wrapAll_mol io w S0 src hk hi (List.mem_range.mp ha)).1]
  refine ⟨⟨rfl, fun _ _ => rfl, fun k hk => ?_, fun _ k hk => ?_, fun k hk _ => ?_⟩, ?_⟩
  · change atomData w Atom.pos S0 k s1 = _
    rw [key _ k hk]
    simp only [atomData, List.map_map, Function.comp_def]
  · exact key _ k hk
  · exact List.map_congr_left fun i hi => wrapAll_state io w S0 src k i
  · obtain ⟨t', e, hF⟩ := ldAll_ok (io := io) (S := S) (src := s1) (S0 := S0)
      (s := { t with box := src.box }) hst hp he hroom rest
    have hR := hF.restored (src := s1) (s := { t with box := src.box }) rfl hroom
    refine ⟨t', ?_, ⟨hR.box, hR.count, fun k hk => ?_, hR.vel, hR.state⟩, hF.good,
      fun ho => hF.occ ho, hF.lm, hF.other, fun k i hni => ?_⟩
    · rw [← e]
      unfold loadConfig saveConfig
      simp only [List.append_assoc]
      rw [← hs1, ldBox_sv hl (b := s1.box) hs.box hb, ok_bind]
      · rfl
      · obtain ⟨n, hn⟩ : ∃ n, w.nSp = n + 1 := ⟨w.nSp - 1, by omega⟩
        intro x r hc
        rw [hn, List.range_succ_eq_map] at hc
        simp [svSpecies] at hc
    · rw [hR.pos k hk]
      change _ = List.map (fun l => List.map id l) (atomData w Atom.pos S0 k s1)
      rw [key _ k hk]
      simp only [List.map_map, Function.comp_def, id_eq, List.map_id_fun]
      refine List.map_congr_left fun i hi => List.map_congr_left fun a ha => ?_
      exact hidem k hk i hi a (List.mem_range.mp ha)
    · refine hF.molN k i ?_
      rintro ⟨hk, hi⟩
      exact hni ⟨hk, by rw [hF.ids k hk]; exact hi⟩

end Verif.McConfig
