/-
Loops of the readers of configurations: what they do to the reservoirs, the
molecules of the system and the contents of molecules.
-/
import Verif.McConfig.Model

set_option autoImplicit false

namespace Verif.McConfig

open Verif.Cpp
open Verif.Cpp.Out
open Verif.Boundary (Vec Ortho Mono)
open Verif.McPool (Pool getMol addMol removeAll)
open Verif.McLink (LM addLink)

variable {B : Type}

/-! ### Boundaries -/

/-- Reading what was written restores a boundary. -/
structure BoxIO.Laws (io : BoxIO B) : Prop where
  text : ∀ b c, io.Good b → io.Good c → ∀ rest, io.parse c (io.print b ++ rest) = some (b, rest)
  archive : ∀ b c, io.Good b → io.Good c → ∀ rest, io.load c (io.save b ++ rest) = some (b, rest)

theorem orthoLaws : orthoIO.Laws where
  text _ _ hb hc rest := Boundary.C47_ortho_text hb hc rest
  archive _ c hb _ rest := Boundary.C47_ortho_archive hb c rest

theorem monoLaws : monoIO.Laws where
  text _ _ hb hc rest := Boundary.C47_mono_text hb hc rest
  archive _ _ hb hc rest := Boundary.C47_mono_archive hb hc rest

theorem takeWhile_some {α : Type} (l : List α) (r : List (Option α)) :
    (l.map some ++ none :: r).takeWhile Option.isSome = l.map some := by
  induction l with
  | nil => simp
  | cons a l ih => simp [ih]

theorem takeWhile_all {α : Type} (l : List α) :
    (l.map some).takeWhile Option.isSome = l.map some := by
  induction l with
  | nil => rfl
  | cons a l ih => simpa using ih

theorem filterMap_some {α : Type} (l : List α) : (l.map some).filterMap id = l := by
  induction l with
  | nil => rfl
  | cons a l ih => simp

theorem rdBox_wr {io : BoxIO B} (hl : io.Laws) {b c : B} (hb : io.Good b) (hc : io.Good c)
    (l : String) (ws : List Tok) :
    rdBox io c ((io.print b).map Tok.bd ++ .lab l :: ws) = ok (b, .lab l :: ws) := by
  unfold rdBox
  have e : (List.map Tok.bd? ((io.print b).map Tok.bd ++ .lab l :: ws)) =
      (io.print b).map some ++ none :: ws.map Tok.bd? := by
    rw [List.map_append, List.map_map]; rfl
  have hp := hl.text b c hb hc []
  rw [List.append_nil] at hp
  simp only [e, takeWhile_some, filterMap_some, hp]
  rw [List.length_nil, Nat.sub_zero, List.length_map,
    List.drop_append_of_le_length (by rw [List.length_map]), List.drop_eq_nil_of_le (by simp)]
  rfl

theorem ldBox_sv {io : BoxIO B} (hl : io.Laws) {b c : B} (hb : io.Good b) (hc : io.Good c)
    (vs : List Val) (hv : ∀ x rest, vs ≠ Val.box x :: rest) :
    ldBox io c ((io.save b).map Val.box ++ vs) = ok (b, vs) := by
  unfold ldBox
  have e : ((List.map Val.box? ((io.save b).map Val.box ++ vs))).takeWhile Option.isSome =
      (io.save b).map some := by
    rw [List.map_append, List.map_map]
    cases vs with
    | nil =>
      rw [List.map_nil, List.append_nil]
      exact takeWhile_all _
    | cons v vs =>
      cases v with
      | box x => exact absurd rfl (hv x vs)
      | int z => exact takeWhile_some _ _
      | vec v => exact takeWhile_some _ _
  have hp := hl.archive b c hb hc []
  rw [List.append_nil] at hp
  simp only [e, filterMap_some, hp]
  rw [List.length_nil, Nat.sub_zero, List.length_map,
    List.drop_append_of_le_length (by rw [List.length_map]), List.drop_eq_nil_of_le (by simp)]
  rfl

/-! ### Taking molecules from a reservoir -/

/-- The reservoirs and systems are as the calls of `McPool` leave them. -/
def PoolOK (w : Sim) (p : Pool) : Prop := ∃ pl, McPool.Inv w.nSp w.cap p pl

/-- Molecule `i` of species `k` went from the reservoir to the end of the set of
molecules of system `S`. -/
structure Step (w : Sim) (S k i : ℕ) (p p' : Pool) : Prop where
  good : PoolOK w p'
  res : p.res k = i :: p'.res k
  ids : (p'.set S k).elems = (p.set S k).elems ++ [i]
  resN : ∀ k', k' ≠ k → p'.res k' = p.res k'
  idsN : ∀ S' k', ¬ (S' = S ∧ k' = k) → (p'.set S' k').elems = (p.set S' k').elems

theorem addMol_frame {S k i : ℕ} {p p' : Pool} (h : addMol S k i p = ok p') :
    p'.res = p.res ∧ ∀ S' k', ¬ (S' = S ∧ k' = k) → p'.set S' k' = p.set S' k' := by
  unfold addMol at h
  obtain ⟨-, -, h⟩ := bind_eq_ok.mp h
  obtain ⟨s, -, h⟩ := bind_eq_ok.mp h
  simp only [ok.injEq] at h
  subst h
  refine ⟨rfl, fun S' k' hn => ?_⟩
  have := McPool.setSet_at p S k s S' k'
  rw [if_neg hn] at this
  exact this

theorem takeMol_ok {w : Sim} {p : Pool} (hp : PoolOK w p) (chk : Bool) {S k i : ℕ} {l : List ℕ}
    (hk : k < w.nSp) (hr : p.res k = i :: l) :
    ∃ p', takeMol chk S k (p.set S k).elems.length p = ok (p', i) ∧ Step w S k i p p' := by
  obtain ⟨pl, hI⟩ := hp
  rcases hI.get hk with ⟨h0, -⟩ | ⟨i', l', hr', hg, hi, -, hI2⟩
  · rw [hr] at h0; cases h0
  obtain ⟨rfl, rfl⟩ : i = i' ∧ l = l' := by
    rw [hr] at hr'; simpa using hr'
  obtain ⟨p2, ha, hI3, he⟩ := hI2.add (S := S) hk hi (McPool.move_self _ _ _ _)
  obtain ⟨f1, f2⟩ := addMol_frame ha
  have hel : (p2.set S k).elems = (p.set S k).elems ++ [i] := he
  refine ⟨p2, ?_, ⟨_, hI3⟩, ?_, hel, ?_, ?_⟩
  · unfold takeMol
    rw [hg, ok_bind]
    simp only [ha, ok_bind, hel, List.length_append, List.length_singleton]
    cases chk with
    | false => rfl
    | true =>
      rw [if_pos rfl, require_true (by omega), ok_bind, check_true (by simp), ok_bind]
  · rw [f1, hr]; simp [Pool.setRes]
  · intro k' hk'
    rw [f1]; simp [Pool.setRes, hk']
  · intro S' k' hn
    rw [f2 S' k' hn]; rfl

theorem PoolOK.nodup {w : Sim} {p : Pool} (hp : PoolOK w p) {k : ℕ} (hk : k < w.nSp) :
    (p.res k).Nodup := by
  obtain ⟨pl, hI⟩ := hp
  exact hI.nodup k hk

theorem PoolOK.res_lt {w : Sim} {p : Pool} (hp : PoolOK w p) {k i : ℕ} (hk : k < w.nSp)
    (hi : i ∈ p.res k) : i < w.cap k := by
  obtain ⟨pl, hI⟩ := hp
  exact ((hI.res k hk i).mp hi).1

theorem PoolOK.ids_lt {w : Sim} {p : Pool} (hp : PoolOK w p) {S k i : ℕ} (hk : k < w.nSp)
    (hi : i ∈ (p.set S k).elems) : i < w.cap k := by
  obtain ⟨pl, hI⟩ := hp
  exact ((hI.set S k hk i).mp hi).1

theorem PoolOK.ids_nodup {w : Sim} {p : Pool} (hp : PoolOK w p) (S : ℕ) {k : ℕ} (hk : k < w.nSp) :
    ((p.set S k).elems).Nodup := by
  obtain ⟨pl, hI⟩ := hp
  exact (hI.good S k hk).nodup

/-! ### Occupancies of states -/

/-- The occupancy of a state is the number of all molecules of the species,
whether or not they are in a system, whose recorded state it is. -/
def OccOK (w : Sim) (s : St B) : Prop :=
  ∀ k < w.nSp, ∀ c, s.occ k c =
    ((Finset.range (w.cap k)).filter fun i => (s.mol k i).state = some c).card

theorem setMol_at (s : St B) (k i : ℕ) (m : Mol) (k' i' : ℕ) :
    (s.setMol k i m).mol k' i' = if k' = k ∧ i' = i then m else s.mol k' i' := by
  simp only [St.setMol]
  by_cases hk : k' = k
  · subst hk
    rw [Function.update_self]
    by_cases hi : i' = i
    · subst hi; simp
    · simp [hi]
  · simp [hk]

theorem OccOK.congr {w : Sim} {s s' : St B} (h : OccOK w s) (ho : s'.occ = s.occ)
    (hm : ∀ k i, (s'.mol k i).state = (s.mol k i).state) : OccOK w s' := by
  intro k hk c
  rw [ho, h k hk c]
  simp only [hm]

/-- Number of molecules in a state after one of them changed. -/
theorem card_state (N : ℕ) (f g : ℕ → Option ℕ) {i : ℕ} (hi : i < N) (h : ∀ j, j ≠ i → g j = f j)
    (c : ℕ) : (((Finset.range N).filter fun j => g j = some c).card : ℤ) =
      ((Finset.range N).filter fun j => f j = some c).card
        - (if f i = some c then 1 else 0) + (if g i = some c then 1 else 0) := by
  have key : ∀ (q : ℕ → Option ℕ), (((Finset.range N).filter fun j => q j = some c).card : ℤ) =
      (((Finset.range N).erase i).filter fun j => q j = some c).card
        + (if q i = some c then 1 else 0) := by
    intro q
    conv_lhs => rw [← Finset.insert_erase (Finset.mem_range.mpr hi)]
    rw [Finset.filter_insert]
    split
    · rw [Finset.card_insert_of_notMem (by simp)]; push_cast; rfl
    · simp
  rw [key f, key g]
  have : (((Finset.range N).erase i).filter fun j => g j = some c) =
      (((Finset.range N).erase i).filter fun j => f j = some c) := by
    refine Finset.filter_congr fun j hj => ?_
    rw [h j (Finset.ne_of_mem_erase hj)]
  rw [this]
  ring

theorem newOcc_at (occ : ℕ → ℤ) (old : Option ℕ) (c d : ℕ) :
    newOcc occ old c d = occ d - (if old = some d then 1 else 0) + (if some c = some d then 1 else 0) := by
  unfold newOcc
  cases old with
  | none =>
    by_cases h : d = c
    · subst h; simp
    · have : ¬ c = d := fun e => h e.symm
      simp [h, this]
  | some e =>
    by_cases h : d = c
    · subst h
      by_cases h2 : d = e
      · subst h2; simp
      · have : ¬ e = d := fun x => h2 x.symm
        simp [h2, this]
    · have h' : ¬ c = d := fun e => h e.symm
      by_cases h2 : d = e
      · subst h2; simp [h, h']
      · have : ¬ e = d := fun x => h2 x.symm
        simp [h, h', h2, this]

theorem setState_ok (w : Sim) (k i c : ℕ) (hc : c < w.nState k) (s : St B) :
    ∃ s', setState w k i c s = ok s' ∧ s'.box = s.box ∧ s'.pool = s.pool ∧ s'.lm = s.lm ∧
      s'.mol = (s.setMol k i ⟨fun a => if a < w.nAtom k then
        { (s.mol k i).atom a with typ := w.stateType k c a } else (s.mol k i).atom a, some c⟩).mol ∧
      (i < w.cap k → OccOK w s → OccOK w s') := by
  unfold setState
  rw [require_true (by constructor <;> omega), ok_bind]
  refine ⟨_, rfl, rfl, rfl, rfl, rfl, fun hi ho k' hk' d => ?_⟩
  rw [Int.toNat_natCast]
  by_cases hkk : k' = k
  · subst hkk
    have hc2 := card_state (w.cap k') (fun j => (s.mol k' j).state)
      (fun j => ((s.setMol k' i ⟨fun a => if a < w.nAtom k' then
        { (s.mol k' i).atom a with typ := w.stateType k' c a } else (s.mol k' i).atom a,
          some c⟩).mol k' j).state) hi
      (fun j hj => by simp only [setMol_at]; rw [if_neg (fun h => hj h.2)]) d
    simp only [setMol_at] at hc2 ⊢
    rw [Function.update_self, newOcc_at, ho k' hk' d]
    simp only [true_and, if_true] at hc2 ⊢
    exact hc2.symm
  · have e : ∀ j, ((s.setMol k i ⟨fun a => if a < w.nAtom k then
        { (s.mol k i).atom a with typ := w.stateType k c a } else (s.mol k i).atom a,
          some c⟩).mol k' j) = s.mol k' j := fun j => by
      rw [setMol_at, if_neg (fun h => hkk h.1)]
    simp only [e]
    rw [Function.update_of_ne hkk]
    exact ho k' hk' d

/-! ### Loops -/

/-- Reading atoms: each atom is changed by `eff`. -/
theorem rdAtoms_ok {σ : Type} (f : ℕ → Atom → σ → Out (Atom × σ)) (n : ℕ) (m : Mol)
    (strm : ℕ → σ) (eff : ℕ → Atom → Atom)
    (hf : ∀ a < n, ∀ x, f a x (strm a) = ok (eff a x, strm (a + 1))) :
    rdAtoms f n m (strm 0) =
      ok ({ m with atom := fun a => if a < n then eff a (m.atom a) else m.atom a }, strm n) := by
  unfold rdAtoms
  obtain ⟨x, hx, hP⟩ := loop_range_ok
    (P := fun j (x : Mol × σ) => x =
      ({ m with atom := fun a => if a < j then eff a (m.atom a) else m.atom a }, strm j))
    (fun (x : Mol × σ) a => do
      let (at', ws) ← f a (x.1.atom a) x.2
      ok (x.1.setAtom a at', ws)) n (m, strm 0) (by simp) (by
      rintro j hj x rfl
      refine ⟨_, by rw [hf j hj]; rfl, ?_⟩
      simp only [Prod.mk.injEq, and_true, Mol.setAtom, Mol.mk.injEq]
      funext a
      by_cases h1 : a = j
      · subst h1; simp
      · rw [Function.update_of_ne h1]
        have : a < j + 1 ↔ a < j := by omega
        simp only [this])
  rw [hx, hP]

/-- The species in `K` of system `S` were filled: `n k` molecules of species `k`
were taken from the reservoir, in its order, and their contents changed by
`eff`. -/
structure Filled (w : Sim) (S : ℕ) (n : ℕ → ℕ) (eff : ℕ → ℕ → Mol → Mol) (K : ℕ → Prop)
    (s s' : St B) : Prop where
  good : PoolOK w s'.pool
  ids : ∀ k, K k → s'.ids S k = (s.pool.res k).take (n k)
  res : ∀ k, K k → s'.pool.res k = (s.pool.res k).drop (n k)
  idsN : ∀ k, ¬ K k → s'.ids S k = s.ids S k
  resN : ∀ k, ¬ K k → s'.pool.res k = s.pool.res k
  other : ∀ S', S' ≠ S → ∀ k, s'.ids S' k = s.ids S' k
  box : s'.box = s.box
  lm : s'.lm = s.lm
  mol : ∀ k, K k → ∀ j < n k, s'.mol k ((s.pool.res k).getD j 0) =
    eff k j (s.mol k ((s.pool.res k).getD j 0))
  molN : ∀ k i, ¬ (K k ∧ i ∈ (s.pool.res k).take (n k)) → s'.mol k i = s.mol k i
  occ : OccOK w s → OccOK w s'

/-- What the body of a loop over molecules has to do. -/
structure MolStep (w : Sim) (S k : ℕ) (eff : Mol → Mol) (i : ℕ) (s s' : St B) : Prop where
  pool : Step w S k i s.pool s'.pool
  mol : s'.mol = (s.setMol k i (eff (s.mol k i))).mol
  box : s'.box = s.box
  lm : s'.lm = s.lm
  occ : i < w.cap k → OccOK w s → OccOK w s'

theorem loop_mols {σ : Type} {w : Sim} {S k n : ℕ} (hk : k < w.nSp)
    (f : St B × σ → ℕ → Out (St B × σ)) (strm : ℕ → σ) (eff : ℕ → Mol → Mol) {s : St B}
    (hf : ∀ j < n, ∀ (t : St B) i l, PoolOK w t.pool → t.box = s.box → (t.ids S k).length = j →
      t.pool.res k = i :: l → (s.pool.res k).getD j 0 = i →
      ∃ t', f (t, strm j) j = ok (t', strm (j + 1)) ∧
        MolStep w S k (eff j) i t t')
    (hp : PoolOK w s.pool) (he : s.ids S k = []) (hn : n ≤ (s.pool.res k).length) :
    ∃ s', loop f (List.range n) (s, strm 0) = ok (s', strm n) ∧
      Filled w S (fun _ => n) (fun _ => eff) (· = k) s s' := by
  have hnd := hp.nodup hk
  obtain ⟨R, hR⟩ : ∃ R, R = s.pool.res k := ⟨_, rfl⟩
  rw [← hR] at hnd hn
  obtain ⟨x, hx, h1, h2⟩ := loop_range_ok
    (P := fun j (x : St B × σ) => x.2 = strm j ∧
      Filled w S (fun _ => j) (fun _ => eff) (· = k) s x.1) f n (s, strm 0)
    ⟨rfl, hp, fun k' h => by subst h; simpa using he, fun k' h => by simp, fun _ _ => rfl,
      fun _ _ => rfl, fun _ _ _ => rfl, rfl, rfl, fun _ _ j h => absurd h (Nat.not_lt_zero j),
      fun _ _ _ => rfl, fun h => h⟩ (by
    rintro j hj ⟨t, ws⟩ ⟨rfl, F⟩
    have hres := F.res k rfl
    have hids := F.ids k rfl
    rw [← hR] at hres hids
    have hjl : j < R.length := by omega
    have hcons : R.drop j = R[j] :: R.drop (j + 1) := List.drop_eq_getElem_cons hjl
    obtain ⟨t', e, M⟩ := hf j hj t R[j] (R.drop (j + 1)) F.good F.box
      (by rw [hids, List.length_take]; omega) (by rw [hres, hcons])
      (by rw [← hR]; exact List.getD_eq_getElem _ _ hjl)
    have hnot : R[j] ∉ R.take j := by
      intro hm
      obtain ⟨a, ha, hae⟩ := List.getElem_of_mem hm
      rw [List.length_take] at ha
      rw [List.getElem_take] at hae
      have := (List.Nodup.getElem_inj_iff hnd).mp hae
      omega
    refine ⟨(t', strm (j + 1)), e, rfl, M.pool.good, ?_, ?_, ?_, ?_, ?_, M.box.trans F.box,
      M.lm.trans F.lm, ?_, ?_, ?_⟩
    · rintro k' rfl
      rw [St.ids, M.pool.ids, ← hR]
      change t.ids S k' ++ _ = _
      rw [hids, List.take_add_one, List.getElem?_eq_getElem hjl]
      rfl
    · rintro k' rfl
      have := M.pool.res
      rw [hres, hcons] at this
      rw [← hR]
      exact (List.cons_inj_right _ |>.mp this).symm
    · intro k' hk'
      rw [St.ids, M.pool.idsN S k' (fun h => hk' h.2)]
      exact F.idsN k' hk'
    · intro k' hk'
      rw [M.pool.resN k' hk', F.resN k' hk']
    · intro S' hS' k'
      rw [St.ids, M.pool.idsN S' k' (fun h => hS' h.1)]
      exact F.other S' hS' k'
    · rintro k' rfl a ha
      rw [M.mol, setMol_at, ← hR]
      have hal : a < R.length := by omega
      rw [List.getD_eq_getElem _ _ hal]
      by_cases haj : a = j
      · subst haj
        rw [if_pos ⟨rfl, rfl⟩]
        congr 1
        refine F.molN _ _ ?_
        rintro ⟨-, hc⟩
        rw [← hR] at hc
        exact hnot hc
      · rw [if_neg, ← List.getD_eq_getElem _ 0 hal]
        · have := F.mol k' rfl a (by omega)
          rw [← hR] at this
          exact this
        · rintro ⟨-, hc⟩
          exact haj ((List.Nodup.getElem_inj_iff hnd).mp hc)
    · intro k' i hni
      rw [M.mol, setMol_at, if_neg]
      · refine F.molN _ _ fun hc => hni ⟨hc.1, ?_⟩
        exact List.take_subset_take_left _ (by omega) hc.2
      · rintro ⟨rfl, rfl⟩
        refine hni ⟨rfl, ?_⟩
        rw [← hR, List.take_add_one, List.getElem?_eq_getElem hjl]
        exact List.mem_append_right _ (List.mem_singleton_self _)
    · intro ho
      exact M.occ (F.good.res_lt hk (by rw [hres, hcons]; exact List.mem_cons_self)) (F.occ ho))
  exact ⟨x.1, by rw [hx, ← h1], h2⟩

/-- A loop over species that fills each of them. -/
theorem loop_species {σ : Type} {w : Sim} {S : ℕ} (f : St B × σ → ℕ → Out (St B × σ))
    (strm : ℕ → σ) (n : ℕ → ℕ) (eff : ℕ → ℕ → Mol → Mol) {s : St B}
    (hf : ∀ k < w.nSp, ∀ t : St B, PoolOK w t.pool → t.box = s.box → t.ids S k = [] →
      t.pool.res k = s.pool.res k →
      ∃ t', f (t, strm k) k = ok (t', strm (k + 1)) ∧
        Filled w S (fun _ => n k) (fun _ => eff k) (· = k) t t')
    (hp : PoolOK w s.pool) (he : ∀ k < w.nSp, s.ids S k = []) :
    ∃ s', loop f (List.range w.nSp) (s, strm 0) = ok (s', strm w.nSp) ∧
      Filled w S n eff (· < w.nSp) s s' := by
  obtain ⟨x, hx, h1, h2⟩ := loop_range_ok
    (P := fun j (x : St B × σ) => x.2 = strm j ∧ Filled w S n eff (· < j) s x.1) f w.nSp
    (s, strm 0)
    ⟨rfl, hp, fun k h => absurd h (Nat.not_lt_zero k), fun k h => absurd h (Nat.not_lt_zero k),
      fun _ _ => rfl, fun _ _ => rfl, fun _ _ _ => rfl, rfl, rfl,
      fun k h => absurd h (Nat.not_lt_zero k), fun _ _ _ => rfl, fun h => h⟩ (by
    rintro j hj ⟨t, ws⟩ ⟨rfl, F⟩
    have hjj : ¬ j < j := by omega
    obtain ⟨t', e, G⟩ := hf j hj t F.good F.box (by rw [F.idsN j hjj]; exact he j hj)
      (F.resN j hjj)
    refine ⟨(t', strm (j + 1)), e, rfl, G.good, ?_, ?_, ?_, ?_, ?_, G.box.trans F.box,
      G.lm.trans F.lm, ?_, ?_, fun h => G.occ (F.occ h)⟩
    · intro k hk
      by_cases h : k = j
      · subst h
        rw [G.ids k rfl, F.resN k hjj]
      · rw [G.idsN k h, F.ids k (by omega)]
    · intro k hk
      by_cases h : k = j
      · subst h
        rw [G.res k rfl, F.resN k hjj]
      · rw [G.resN k h, F.res k (by omega)]
    · intro k hk
      rw [G.idsN k (by omega), F.idsN k (by omega)]
    · intro k hk
      rw [G.resN k (by omega), F.resN k (by omega)]
    · intro S' hS' k
      rw [G.other S' hS' k, F.other S' hS' k]
    · intro k hk a ha
      by_cases h : k = j
      · subst h
        have := G.mol k rfl a ha
        rw [F.resN k hjj] at this
        rw [this, F.molN k _ (fun h => hjj h.1)]
      · rw [G.molN k _ (fun hc => h hc.1), F.mol k (by omega) a ha]
    · intro k i hni
      rw [G.molN k i, F.molN k i]
      · rintro ⟨h1, h2⟩
        exact hni ⟨by omega, h2⟩
      · rintro ⟨rfl, h2⟩
        rw [F.resN k hjj] at h2
        exact hni ⟨by omega, h2⟩)
  exact ⟨x.1, by rw [hx, ← h1], h2⟩

/-! ### Streams made of chunks -/

/-- What is left of a text after `j` of its `n` chunks. -/
def left {τ : Type} (chunk : ℕ → List τ) (n : ℕ) (rest : List τ) (j : ℕ) : List τ :=
  (List.range' j (n - j)).flatMap chunk ++ rest

theorem left_succ {τ : Type} (chunk : ℕ → List τ) {n j : ℕ} (rest : List τ) (h : j < n) :
    left chunk n rest j = chunk j ++ left chunk n rest (j + 1) := by
  unfold left
  obtain ⟨m, hm⟩ : ∃ m, n - j = m + 1 := ⟨n - j - 1, by omega⟩
  have : n - (j + 1) = m := by omega
  rw [hm, this, List.range'_succ, List.flatMap_cons, List.append_assoc]

theorem left_end {τ : Type} (chunk : ℕ → List τ) (n : ℕ) (rest : List τ) :
    left chunk n rest n = rest := by
  simp [left]

theorem left_zero {τ : Type} (chunk : ℕ → List τ) (n : ℕ) (rest : List τ) :
    left chunk n rest 0 = (List.range n).flatMap chunk ++ rest := by
  rw [left, List.range_eq_range', Nat.sub_zero]

/-! ### Elementary readers -/

theorem rdVec_wr (v : Vec) (ws : List Tok) : rdVec (wrVec v ++ ws) = ok (v, ws) := by
  have : (![v 0, v 1, v 2] : Vec) = v := by funext i; fin_cases i <;> rfl
  simp only [wrVec, List.cons_append, List.nil_append, rdVec, this]

theorem rdCount_wr (s : String) (z : ℤ) (ws : List Tok) :
    rdCount s (.lab s :: .int z :: ws) = ok (z, ws) := by
  simp [rdCount, rdLab, rdInt]

theorem rdAtom_wr (io : BoxIO B) (b : B) (md : Bool) (x y : Atom) (ws : List Tok) :
    rdAtom io b md y (wrAtom md x ++ ws) =
      ok (⟨io.shift b x.pos, if md then x.vel else y.vel, y.typ⟩, ws) := by
  unfold rdAtom wrAtom
  cases md with
  | true =>
    simp only [if_true, List.append_assoc, rdVec_wr, ok_bind]
  | false =>
    simp only [Bool.false_eq_true, if_false, List.append_nil, rdVec_wr, ok_bind]

/-! ### Emptying a system -/

theorem emptied_ok {w : Sim} {s : St B} (hp : PoolOK w s.pool) (S : ℕ) {lcap acap : ℕ}
    {reg : McLink.Reg} (hl : McLink.Inv lcap acap s.lm reg) :
    ∃ s', emptied w S s = ok s' ∧ PoolOK w s'.pool ∧ (∀ k < w.nSp, s'.ids S k = []) ∧
      (∀ k < w.nSp, s'.pool.res k = s.ids S k ++ s.pool.res k) ∧
      (∀ S', S' ≠ S → ∀ k, s'.ids S' k = s.ids S' k) ∧
      s'.box = s.box ∧ s'.mol = s.mol ∧ s'.occ = s.occ ∧
      (w.useLinks = true → ¬ isEmpty w S s → McLink.Inv lcap acap s'.lm fun _ => none) ∧
      (isEmpty w S s → s'.lm = s.lm) := by
  classical
  unfold emptied
  by_cases he : isEmpty w S s
  · rw [if_pos he]
    refine ⟨s, rfl, hp, he, fun k hk => by rw [he k hk, List.nil_append], fun _ _ _ => rfl, rfl,
      rfl, rfl, fun _ h => absurd he h, fun _ => rfl⟩
  · rw [if_neg he]
    obtain ⟨pl, hI⟩ := hp
    obtain ⟨p', e1, h1, h2, h3⟩ := McPool.removeAll_ok hI S
    unfold clearSystem
    rw [e1, ok_bind]
    cases hu : w.useLinks with
    | true =>
      obtain ⟨l', e2, h4⟩ := hl.clear_ok
      simp only [if_true, e2, ok_bind]
      refine ⟨_, rfl, ⟨_, h1⟩, fun k hk => (h2 k hk).2, fun k hk => (h2 k hk).1, ?_, rfl, rfl, rfl,
        fun _ _ => h4, fun h => absurd h he⟩
      intro S' hS' k
      simp only [St.ids, h3 S' hS' k]
    | false =>
      simp only [Bool.false_eq_true, if_false, ok_bind]
      refine ⟨_, rfl, ⟨_, h1⟩, fun k hk => (h2 k hk).2, fun k hk => (h2 k hk).1, ?_, rfl, rfl, rfl,
        nofun, fun h => absurd h he⟩
      intro S' hS' k
      simp only [St.ids, h3 S' hS' k]

end Verif.McConfig
