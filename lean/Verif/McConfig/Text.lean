/-
Molecules in configuration files of `McMdConfigIo` and in archives.
-/
import Verif.McConfig.Lemmas

set_option autoImplicit false

namespace Verif.McConfig

open Verif.Cpp
open Verif.Cpp.Out
open Verif.Boundary (Vec)

variable {B : Type}

/-- A molecule after the contents of `src` were read into it; `md` tells whether
velocities are stored. -/
def readEff (io : BoxIO B) (b : B) (w : Sim) (md : Bool) (k : ℕ) (src old : Mol) : Mol :=
  ⟨fun a => if a < w.nAtom k then
      ⟨io.shift b (src.atom a).pos, if md then (src.atom a).vel else (old.atom a).vel,
        if w.isMutable k then w.stateType k (src.state.getD 0) a else (old.atom a).typ⟩
    else old.atom a,
    if w.isMutable k then src.state else old.state⟩

/-- Molecules of mutable species have a state. -/
def HasState (w : Sim) (k : ℕ) (m : Mol) : Prop :=
  w.isMutable k = true → ∃ c < w.nState k, m.state = some c

/-- The part of the body of the readers that follows `takeMol`: state and
atoms. -/
theorem fill_ok {σ : Type} {w : Sim} {io : BoxIO B} {md : Bool} {S k i : ℕ} {src : Mol}
    (hst : HasState w k src) {s : St B} {p : McPool.Pool} (hp : Step w S k i s.pool p)
    (rdSt : St B → σ → Out (St B × σ)) (rdAt : B → ℕ → Atom → σ → Out (Atom × σ))
    (z0 : σ) (strm : ℕ → σ)
    (hs1 : w.isMutable k = true → ∀ c, src.state = some c → ∀ t : St B,
      rdSt t z0 = (setState w k i c t >>= fun t => ok (t, strm 0)))
    (hs2 : w.isMutable k = false → ∀ t : St B, rdSt t z0 = ok (t, strm 0))
    (ha : ∀ a < w.nAtom k, ∀ y, rdAt s.box a y (strm a) =
      ok (⟨io.shift s.box (src.atom a).pos, if md then (src.atom a).vel else y.vel, y.typ⟩,
        strm (a + 1))) :
    ∃ t, (do
      let (t, ws) ← rdSt { s with pool := p } z0
      let (m, ws) ← rdAtoms (rdAt t.box) (w.nAtom k) (t.mol k i) ws
      ok (t.setMol k i m, ws)) = ok (t, strm (w.nAtom k)) ∧
      MolStep w S k (readEff io s.box w md k src) i s t := by
  cases hm : w.isMutable k with
  | true =>
    obtain ⟨c, hc, hsc⟩ := hst hm
    obtain ⟨t, et, h1, h2, h3, h4, h5⟩ := setState_ok w k i c hc { s with pool := p }
    rw [hs1 hm c hsc, et, ok_bind, ok_bind]
    simp only [h1]
    rw [rdAtoms_ok (rdAt s.box) (w.nAtom k) (t.mol k i) strm _ ha]
    refine ⟨_, rfl, ?_, ?_, h1, h3, ?_⟩
    · simp only [St.setMol, h2]; exact hp
    · funext k' i'
      rw [setMol_at, setMol_at, h4]
      simp only [setMol_at]
      split
      · simp only [readEff, hm, hsc, if_true, and_self, Option.getD_some]
        congr 1
        funext a
        by_cases h : a < w.nAtom k <;> simp [h]
      · rfl
    · intro hi ho
      have ho2 := h5 hi (OccOK.congr ho rfl fun _ _ => rfl)
      refine ho2.congr rfl fun k' i' => ?_
      rw [setMol_at]
      split
      · next h => rw [h.1, h.2]
      · rfl
  | false =>
    rw [hs2 hm, ok_bind]
    simp only []
    rw [rdAtoms_ok (rdAt s.box) (w.nAtom k) (s.mol k i) strm _ ha]
    refine ⟨_, rfl, hp, ?_, rfl, rfl, ?_⟩
    · funext k' i'
      rw [setMol_at, setMol_at]
      split
      · simp only [readEff, hm, Bool.false_eq_true, if_false]
      · rfl
    · intro hi ho
      refine ho.congr rfl fun k' i' => ?_
      rw [setMol_at]
      split
      · next h => rw [h.1, h.2]
      · rfl

/-! ### Text -/

theorem rdMol_ok {io : BoxIO B} {w : Sim} (md : Bool) {S k i : ℕ} {l : List ℕ} (hk : k < w.nSp)
    {src : Mol} (hst : HasState w k src) {s : St B} (hp : PoolOK w s.pool)
    (hr : s.pool.res k = i :: l) (rest : List Tok) :
    ∃ t, rdMol io w md S k (s, wrMol w md k (s.ids S k).length src ++ rest) (s.ids S k).length
        = ok (t, rest) ∧ MolStep w S k (readEff io s.box w md k src) i s t := by
  obtain ⟨p, ep, hstep⟩ := takeMol_ok hp true (S := S) hk hr
  obtain ⟨t, et, hM⟩ := fill_ok (io := io) (md := md) hst hstep (rdState w k i)
    (fun b _ => rdAtom io b md)
    ((if w.isMutable k then [.lab "stateId", .int (stateNum src.state)] else []) ++
      (((List.range (w.nAtom k)).flatMap fun a => wrAtom md (src.atom a)) ++ rest))
    (left (fun a => wrAtom md (src.atom a)) (w.nAtom k) rest)
    (by
      intro hm c hc u
      rw [left_zero]
      simp only [rdState, hm, if_true, hc, stateNum, List.cons_append, List.nil_append, rdLab,
        ok_bind, rdInt])
    (by
      intro hm u
      rw [left_zero]
      simp only [rdState, hm, Bool.false_eq_true, if_false, List.nil_append])
    (by
      intro a ha y
      rw [left_succ _ _ ha, rdAtom_wr])
  rw [left_end] at et
  refine ⟨t, ?_, hM⟩
  rw [← et]
  unfold rdMol wrMol
  simp only [List.cons_append, List.nil_append, List.append_assoc, rdCount_wr, ok_bind, ep]
  rw [check_true trivial, ok_bind]

theorem rdSpecies_ok {io : BoxIO B} {w : Sim} (md : Bool) {S k : ℕ} (hk : k < w.nSp)
    {src : St B} {S0 : ℕ} (hst : ∀ j < (src.ids S0 k).length, HasState w k (src.molAt S0 k j))
    {s : St B} (hp : PoolOK w s.pool) (he : s.ids S k = [])
    (hn : (src.ids S0 k).length ≤ (s.pool.res k).length) (rest : List Tok) :
    ∃ t, rdSpecies io w md S (s, wrSpecies w md S0 k src ++ rest) k = ok (t, rest) ∧
      Filled w S (fun _ => (src.ids S0 k).length)
        (fun _ j => readEff io s.box w md k (src.molAt S0 k j)) (· = k) s t := by
  obtain ⟨t, et, hF⟩ := loop_mols hk (rdMol io w md S k)
    (left (fun j => wrMol w md k j (src.molAt S0 k j)) (src.ids S0 k).length rest)
    (fun j => readEff io s.box w md k (src.molAt S0 k j)) (s := s)
    (by
      rintro j hj t i l hp hb rfl hr -
      rw [left_succ _ _ hj, ← hb]
      exact rdMol_ok md hk (hst _ hj) hp hr _)
    hp he hn
  rw [left_end] at et
  refine ⟨t, ?_, hF⟩
  rw [← et, left_zero]
  unfold rdSpecies wrSpecies
  simp only [List.cons_append, List.nil_append, rdCount_wr, ok_bind]
  rw [check_true trivial, ok_bind, Int.toNat_natCast]

/-- Reading the molecules written for system `S0` of `src` into the empty system
`S` of `s`. -/
theorem rdAll_ok {io : BoxIO B} {w : Sim} (md : Bool) {S S0 : ℕ} {src : St B}
    (hst : ∀ k < w.nSp, ∀ j < (src.ids S0 k).length, HasState w k (src.molAt S0 k j))
    {s : St B} (hp : PoolOK w s.pool) (he : ∀ k < w.nSp, s.ids S k = [])
    (hn : ∀ k < w.nSp, (src.ids S0 k).length ≤ (s.pool.res k).length) (rest : List Tok) :
    ∃ t, loop (rdSpecies io w md S) (List.range w.nSp)
        (s, ((List.range w.nSp).flatMap fun k => wrSpecies w md S0 k src) ++ rest)
        = ok (t, rest) ∧
      Filled w S (fun k => (src.ids S0 k).length)
        (fun k j => readEff io s.box w md k (src.molAt S0 k j)) (· < w.nSp) s t := by
  obtain ⟨t, et, hF⟩ := loop_species (rdSpecies io w md S)
    (left (fun k => wrSpecies w md S0 k src) w.nSp rest)
    (fun k => (src.ids S0 k).length)
    (fun k j => readEff io s.box w md k (src.molAt S0 k j)) (s := s)
    (by
      intro k hk t hp hb he hr
      rw [left_succ _ _ hk, ← hb]
      exact rdSpecies_ok md hk (hst k hk) hp he (by rw [hr]; exact hn k hk) _)
    hp he
  rw [left_end] at et
  exact ⟨t, by rw [← et, left_zero], hF⟩

/-! ### Archives -/

theorem ldMol_ok {io : BoxIO B} {w : Sim} {S k i : ℕ} {l : List ℕ} (hk : k < w.nSp)
    {src : Mol} (hst : HasState w k src) {s : St B} (hp : PoolOK w s.pool)
    (hr : s.pool.res k = i :: l) (rest : List Val) :
    ∃ t, ldMol io w S k (s, svMol w k src ++ rest) (s.ids S k).length
        = ok (t, rest) ∧ MolStep w S k (readEff io s.box w true k src) i s t := by
  obtain ⟨p, ep, hstep⟩ := takeMol_ok hp true (S := S) hk hr
  obtain ⟨t, et, hM⟩ := fill_ok (io := io) (md := true) hst hstep (ldState w k i)
    (fun b _ => ldAtom io b)
    ((if w.isMutable k then [.int (stateNum src.state)] else []) ++
      (((List.range (w.nAtom k)).flatMap fun a =>
        [Val.vec (src.atom a).pos, Val.vec (src.atom a).vel]) ++ rest))
    (left (fun a => [Val.vec (src.atom a).pos, Val.vec (src.atom a).vel]) (w.nAtom k) rest)
    (by
      intro hm c hc u
      rw [left_zero]
      simp only [ldState, hm, if_true, hc, stateNum, List.cons_append, List.nil_append, ldInt,
        ok_bind])
    (by
      intro hm u
      rw [left_zero]
      simp only [ldState, hm, Bool.false_eq_true, if_false, List.nil_append])
    (by
      intro a ha y
      rw [left_succ _ _ ha]
      simp only [ldAtom, List.cons_append, List.nil_append, ldVec, ok_bind, if_true])
  rw [left_end] at et
  refine ⟨t, ?_, hM⟩
  rw [← et]
  unfold ldMol svMol
  simp only [List.append_assoc, ok_bind, ep]

theorem ldSpecies_ok {io : BoxIO B} {w : Sim} {S k : ℕ} (hk : k < w.nSp)
    {src : St B} {S0 : ℕ} (hst : ∀ j < (src.ids S0 k).length, HasState w k (src.molAt S0 k j))
    {s : St B} (hp : PoolOK w s.pool) (he : s.ids S k = [])
    (hn : (src.ids S0 k).length ≤ (s.pool.res k).length) (rest : List Val) :
    ∃ t, ldSpecies io w S (s, svSpecies w S0 k src ++ rest) k = ok (t, rest) ∧
      Filled w S (fun _ => (src.ids S0 k).length)
        (fun _ j => readEff io s.box w true k (src.molAt S0 k j)) (· = k) s t := by
  obtain ⟨t, et, hF⟩ := loop_mols hk (ldMol io w S k)
    (left (fun j => svMol w k (src.molAt S0 k j)) (src.ids S0 k).length rest)
    (fun j => readEff io s.box w true k (src.molAt S0 k j)) (s := s)
    (by
      rintro j hj t i l hp hb rfl hr -
      rw [left_succ _ _ hj, ← hb]
      exact ldMol_ok hk (hst _ hj) hp hr _)
    hp he hn
  rw [left_end] at et
  refine ⟨t, ?_, hF⟩
  rw [← et, left_zero]
  unfold ldSpecies svSpecies
  simp only [List.cons_append, List.nil_append, ldInt, ok_bind]
  rw [check_true trivial, ok_bind, Int.toNat_natCast]

theorem ldAll_ok {io : BoxIO B} {w : Sim} {S S0 : ℕ} {src : St B}
    (hst : ∀ k < w.nSp, ∀ j < (src.ids S0 k).length, HasState w k (src.molAt S0 k j))
    {s : St B} (hp : PoolOK w s.pool) (he : ∀ k < w.nSp, s.ids S k = [])
    (hn : ∀ k < w.nSp, (src.ids S0 k).length ≤ (s.pool.res k).length) (rest : List Val) :
    ∃ t, loop (ldSpecies io w S) (List.range w.nSp)
        (s, ((List.range w.nSp).flatMap fun k => svSpecies w S0 k src) ++ rest)
        = ok (t, rest) ∧
      Filled w S (fun k => (src.ids S0 k).length)
        (fun k j => readEff io s.box w true k (src.molAt S0 k j)) (· < w.nSp) s t := by
  obtain ⟨t, et, hF⟩ := loop_species (ldSpecies io w S)
    (left (fun k => svSpecies w S0 k src) w.nSp rest)
    (fun k => (src.ids S0 k).length)
    (fun k j => readEff io s.box w true k (src.molAt S0 k j)) (s := s)
    (by
      intro k hk t hp hb he hr
      rw [left_succ _ _ hk, ← hb]
      exact ldSpecies_ok hk (hst k hk) hp he (by rw [hr]; exact hn k hk) _)
    hp he
  rw [left_end] at et
  exact ⟨t, by rw [← et, left_zero], hF⟩

end Verif.McConfig
