/-
Loops of the readers of the other formats.
-/
import Verif.McConfig.Formats
import Verif.McConfig.Cases

set_option autoImplicit false

namespace Verif.McConfig

open Verif.Cpp
open Verif.Cpp.Out
open Verif.Boundary (Vec)

variable {B : Type}

theorem loop_congr {σ ι : Type} {f g : σ → ι → Out σ} {l : List ι}
    (h : ∀ a ∈ l, ∀ s, f s a = g s a) (s : σ) : loop f l s = loop g l s := by
  induction l generalizing s with
  | nil => rfl
  | cons a l ih =>
    simp only [loop_cons, h a (List.mem_cons_self ..)]
    refine congrArg (g s a >>= ·) (funext fun s => ?_)
    exact ih (fun b hb => h b (List.mem_cons_of_mem _ hb)) s

/-- The atoms of a molecule of species `k` after each was changed by `eff`. -/
def molEff (w : Sim) (k : ℕ) (eff : ℕ → Atom → Atom) (m : Mol) : Mol :=
  { m with atom := fun a => if a < w.nAtom k then eff a (m.atom a) else m.atom a }

theorem rdBody_ok {σ : Type} {w : Sim} {chk : Bool} {S k i : ℕ} {l : List ℕ} (hk : k < w.nSp)
    {s : St B} (hp : PoolOK w s.pool) (hr : s.pool.res k = i :: l)
    (f : B → ℕ → ℕ → ℕ → Atom → σ → Out (Atom × σ)) (strm : ℕ → σ) (eff : ℕ → Atom → Atom)
    (hf : ∀ a < w.nAtom k, ∀ x, f s.box i (s.ids S k).length a x (strm a) =
      ok (eff a x, strm (a + 1))) :
    ∃ t, rdBody w chk S k f (s, strm 0) (s.ids S k).length = ok (t, strm (w.nAtom k)) ∧
      MolStep w S k (molEff w k eff) i s t := by
  obtain ⟨p, ep, hstep⟩ := takeMol_ok hp chk (S := S) hk hr
  unfold rdBody
  simp only [ep, ok_bind]
  rw [rdAtoms_ok (f s.box i (s.ids S k).length) (w.nAtom k) (s.mol k i) strm eff hf]
  refine ⟨_, rfl, hstep, ?_, rfl, rfl, fun hi ho => ?_⟩
  · rfl
  · refine ho.congr rfl fun k' i' => ?_
    rw [setMol_at]
    split
    · next h => rw [h.1, h.2]
    · rfl

theorem rdSystem_ok {σ : Type} {w : Sim} {chk : Bool} {S : ℕ} {n : ℕ → ℕ}
    (f : ℕ → B → ℕ → ℕ → ℕ → Atom → σ → Out (Atom × σ)) (Z : ℕ → ℕ → ℕ → σ)
    (eff : ℕ → ℕ → ℕ → Atom → Atom) {s : St B} (hp : PoolOK w s.pool)
    (he : ∀ k < w.nSp, s.ids S k = []) (hn : ∀ k < w.nSp, n k ≤ (s.pool.res k).length)
    (hf : ∀ k < w.nSp, ∀ j < n k, ∀ a < w.nAtom k, ∀ x,
      f k s.box ((s.pool.res k).getD j 0) j a x (Z k j a) = ok (eff k j a x, Z k j (a + 1)))
    (hj : ∀ k < w.nSp, ∀ j < n k, Z k j (w.nAtom k) = Z k (j + 1) 0)
    (hk : ∀ k < w.nSp, Z k (n k) 0 = Z (k + 1) 0 0) :
    ∃ t, rdSystem w chk S n f (s, Z 0 0 0) = ok (t, Z w.nSp 0 0) ∧
      Filled w S n (fun k j => molEff w k (eff k j)) (· < w.nSp) s t := by
  unfold rdSystem
  refine loop_species (w := w) (S := S)
    (fun x k => loop (rdBody w chk S k (f k)) (List.range (n k)) x) (fun k => Z k 0 0) n
    (fun k j => molEff w k (eff k j)) (s := s) ?_ hp he
  intro k hk1 t hp2 hb2 he2 hr2
  obtain ⟨t', e, hF⟩ := loop_mols (w := w) (S := S) hk1 (rdBody w chk S k (f k))
    (fun j => Z k j 0) (fun j => molEff w k (eff k j)) (s := t) (n := n k)
    (by
      rintro j hjn u i l hpu hbu rfl hru hi
      have := rdBody_ok (chk := chk) (S := S) hk1 hpu hru (f k) (Z k (u.ids S k).length)
        (eff k (u.ids S k).length) (by
          intro a ha x
          rw [← hi, hr2, hbu, hb2]
          exact hf k hk1 _ hjn a ha x)
      rw [hj k hk1 _ hjn] at this
      exact this)
    hp2 he2 (by rw [hr2]; exact hn k hk1)
  exact ⟨t', by rw [e, hk k hk1], hF⟩

/-- What is left of the text of a system before atom `a` of molecule `j` of
species `k`. -/
def atomsLeft (w : Sim) (n : ℕ → ℕ) (T : ℕ → ℕ → ℕ → List Tok) (rest : List Tok) (k j a : ℕ) :
    List Tok :=
  if k < w.nSp then
    if j < n k then
      left (T k j) (w.nAtom k)
        (left (fun j => (List.range (w.nAtom k)).flatMap (T k j)) (n k)
          (left (fun k => (List.range (n k)).flatMap fun j =>
            (List.range (w.nAtom k)).flatMap (T k j)) w.nSp rest (k + 1)) (j + 1)) a
    else left (fun k => (List.range (n k)).flatMap fun j =>
            (List.range (w.nAtom k)).flatMap (T k j)) w.nSp rest (k + 1)
  else rest

theorem atomsLeft_species (w : Sim) (n : ℕ → ℕ) (T : ℕ → ℕ → ℕ → List Tok) (rest : List Tok)
    (k : ℕ) (hk : k ≤ w.nSp) : atomsLeft w n T rest k 0 0 =
      left (fun k => (List.range (n k)).flatMap fun j =>
        (List.range (w.nAtom k)).flatMap (T k j)) w.nSp rest k := by
  unfold atomsLeft
  by_cases h : k < w.nSp
  · rw [if_pos h, left_succ _ _ h]
    by_cases h0 : 0 < n k
    · rw [if_pos h0, left_zero, ← left_zero (fun j => (List.range (w.nAtom k)).flatMap (T k j)),
        left_succ (fun j => (List.range (w.nAtom k)).flatMap (T k j)) _ h0]
    · rw [if_neg h0]
      have : n k = 0 := by omega
      rw [this]
      simp
  · rw [if_neg h]
    obtain rfl : k = w.nSp := by omega
    rw [left_end]

theorem atomsLeft_zero (w : Sim) (n : ℕ → ℕ) (T : ℕ → ℕ → ℕ → List Tok) (rest : List Tok) :
    atomsLeft w n T rest 0 0 0 = ((List.range w.nSp).flatMap fun k => (List.range (n k)).flatMap
      fun j => (List.range (w.nAtom k)).flatMap fun a => T k j a) ++ rest := by
  rw [atomsLeft_species _ _ _ _ _ (Nat.zero_le _), left_zero]

theorem atomsLeft_end (w : Sim) (n : ℕ → ℕ) (T : ℕ → ℕ → ℕ → List Tok) (rest : List Tok) :
    atomsLeft w n T rest w.nSp 0 0 = rest := by
  rw [atomsLeft_species _ _ _ _ _ le_rfl, left_end]

theorem atomsLeft_atom (w : Sim) (n : ℕ → ℕ) (T : ℕ → ℕ → ℕ → List Tok) (rest : List Tok)
    {k j a : ℕ} (hk : k < w.nSp) (hj : j < n k) (ha : a < w.nAtom k) :
    atomsLeft w n T rest k j a = T k j a ++ atomsLeft w n T rest k j (a + 1) := by
  unfold atomsLeft
  rw [if_pos hk, if_pos hj, left_succ _ _ ha]
  simp only [if_pos hk, if_pos hj]

theorem atomsLeft_mol (w : Sim) (n : ℕ → ℕ) (T : ℕ → ℕ → ℕ → List Tok) (rest : List Tok)
    {k j : ℕ} (hk : k < w.nSp) (hj : j < n k) :
    atomsLeft w n T rest k j (w.nAtom k) = atomsLeft w n T rest k (j + 1) 0 := by
  unfold atomsLeft
  rw [if_pos hk, if_pos hj, if_pos hk, left_end]
  by_cases h : j + 1 < n k
  · rw [if_pos h, left_succ _ _ h, left_zero]
  · rw [if_neg h]
    have : j + 1 = n k := by omega
    rw [this, left_end]

theorem atomsLeft_next (w : Sim) (n : ℕ → ℕ) (T : ℕ → ℕ → ℕ → List Tok) (rest : List Tok)
    {k : ℕ} (hk : k < w.nSp) :
    atomsLeft w n T rest k (n k) 0 = atomsLeft w n T rest (k + 1) 0 0 := by
  rw [atomsLeft_species _ _ _ _ (k + 1) hk]
  unfold atomsLeft
  rw [if_pos hk, if_neg (lt_irrefl _)]

theorem wrSystem_eq (w : Sim) (S : ℕ) (s : St B) (f : ℕ → ℕ → ℕ → ℕ → Atom → List Tok)
    (rest : List Tok) : wrSystem w S s f ++ rest = atomsLeft w (fun k => (s.ids S k).length)
      (fun k j a => f k ((s.ids S k).getD j 0) j a ((s.molAt S k j).atom a)) rest 0 0 0 := by
  rw [atomsLeft_zero]
  rfl

/-! ### Failures -/

theorem loop_throw {σ : Type} {f : σ → ℕ → Out σ} {n j : ℕ} (hj : j < n) {s t : σ}
    (h1 : loop f (List.range j) s = ok t) (h2 : f t j = throw) :
    loop f (List.range n) s = throw := by
  have : List.range n = List.range j ++ (j :: (List.range (n - j - 1)).map (· + (j + 1))) := by
    apply List.ext_getElem
    · simp; omega
    · intro i h3 h4
      rw [List.getElem_range, List.getElem_append]
      split
      · rw [List.getElem_range]
      · next h =>
        rw [List.getElem_cons]
        simp only [List.length_range] at h ⊢
        split
        · omega
        · simp only [List.getElem_map, List.getElem_range]; omega
  rw [this, loop_append, h1, ok_bind, loop_cons, h2, throw_bind]

theorem loop_nop {σ : Type} {f : σ → ℕ → Out σ} {l : List ℕ} (h : ∀ a ∈ l, ∀ s, f s a = ok s)
    (s : σ) : loop f l s = ok s := by
  induction l generalizing s with
  | nil => rfl
  | cons a l ih =>
    rw [loop_cons, h a (List.mem_cons_self ..), ok_bind]
    exact ih (fun b hb => h b (List.mem_cons_of_mem _ hb)) s

theorem rdAtoms_throw {σ : Type} (f : ℕ → Atom → σ → Out (Atom × σ)) {n a : ℕ} (ha : a < n)
    (m : Mol) (strm : ℕ → σ) (eff : ℕ → Atom → Atom)
    (hf : ∀ b < a, ∀ x, f b x (strm b) = ok (eff b x, strm (b + 1)))
    (ht : ∀ x, f a x (strm a) = throw) : rdAtoms f n m (strm 0) = throw := by
  have h := rdAtoms_ok f a m strm eff hf
  unfold rdAtoms at h ⊢
  refine loop_throw ha h ?_
  simp only [ht, throw_bind]

/-- If the atoms before atom `a` of molecule `j` of species `k` can be read but
this one cannot, reading fails. -/
theorem rdSystem_throw_at {σ : Type} {w : Sim} {chk : Bool} {S : ℕ} {n : ℕ → ℕ}
    (f : ℕ → B → ℕ → ℕ → ℕ → Atom → σ → Out (Atom × σ)) (Z : ℕ → ℕ → ℕ → σ)
    (eff : ℕ → ℕ → ℕ → Atom → Atom) {s : St B} (hp : PoolOK w s.pool)
    (he : ∀ k < w.nSp, s.ids S k = []) (hn : ∀ k < w.nSp, n k ≤ (s.pool.res k).length)
    {k j a : ℕ} (hk : k < w.nSp) (hj : j < n k) (ha : a < w.nAtom k)
    (hf : ∀ k' < w.nSp, ∀ j' < n k', ∀ a' < w.nAtom k',
      (k' < k ∨ k' = k ∧ (j' < j ∨ j' = j ∧ a' < a)) → ∀ x,
      f k' s.box ((s.pool.res k').getD j' 0) j' a' x (Z k' j' a') =
        ok (eff k' j' a' x, Z k' j' (a' + 1)))
    (ht : ∀ x, f k s.box ((s.pool.res k).getD j 0) j a x (Z k j a) = throw)
    (hZj : ∀ k < w.nSp, ∀ j < n k, Z k j (w.nAtom k) = Z k (j + 1) 0)
    (hZk : ∀ k < w.nSp, Z k (n k) 0 = Z (k + 1) 0 0) :
    rdSystem w chk S n f (s, Z 0 0 0) = throw := by
  -- the part of the file before molecule `j`
  let n' : ℕ → ℕ := fun k' => if k' < k then n k' else if k' = k then j else 0
  let Z' : ℕ → ℕ → ℕ → σ := fun k' j' a' => if k' ≤ k then Z k' j' a' else Z k j 0
  have hle : ∀ k', n' k' ≤ n k' := by
    intro k'
    simp only [n']
    split_ifs with h1 h2
    · exact le_rfl
    · subst h2; exact hj.le
    · exact Nat.zero_le _
  have hlt : ∀ {k' j'}, j' < n' k' → k' < k ∨ k' = k ∧ j' < j := by
    intro k' j' h
    simp only [n'] at h
    split_ifs at h with h1 h2
    · exact .inl h1
    · exact .inr ⟨h2, h⟩
    · omega
  have hZ0 : Z' 0 0 0 = Z 0 0 0 := by simp [Z']
  obtain ⟨t, e, hF⟩ := rdSystem_ok (chk := chk) (n := n') f Z' eff hp he
    (fun k' hk' => (hle k').trans (hn k' hk'))
    (by
      intro k' hk' j' hj' a' ha' x
      have h := hlt hj'
      have hkk : k' ≤ k := by omega
      simp only [Z', if_pos hkk]
      exact hf k' hk' j' (hj'.trans_le (hle k')) a' ha' (by omega) x)
    (by
      intro k' hk' j' hj'
      have hkk : k' ≤ k := by have := hlt hj'; omega
      simp only [Z', if_pos hkk]
      exact hZj k' hk' j' (hj'.trans_le (hle k')))
    (by
      intro k' hk'
      simp only [Z', n']
      by_cases h1 : k' < k
      · rw [if_pos h1, if_pos h1.le, if_pos (by omega)]
        exact hZk k' hk'
      · rw [if_neg h1]
        by_cases h2 : k' = k
        · subst h2
          rw [if_pos rfl, if_pos le_rfl, if_neg (by omega)]
        · rw [if_neg h2, if_neg (by omega), if_neg (by omega)])
  rw [hZ0, show Z' w.nSp 0 0 = Z k j 0 by simp only [Z']; rw [if_neg (by omega)]] at e
  -- the loops up to that molecule
  have hsplit : List.range w.nSp = List.range k ++
      (k :: (List.range (w.nSp - k - 1)).map (· + (k + 1))) := by
    apply List.ext_getElem
    · simp; omega
    · intro i h3 h4
      rw [List.getElem_range, List.getElem_append]
      split
      · rw [List.getElem_range]
      · next h =>
        rw [List.getElem_cons]
        simp only [List.length_range] at h ⊢
        split
        · omega
        · simp only [List.getElem_map, List.getElem_range]; omega
  unfold rdSystem at e ⊢
  rw [hsplit, loop_append] at e
  obtain ⟨y, e1, e2⟩ := bind_eq_ok.mp e
  rw [loop_cons] at e2
  obtain ⟨z, e3, e4⟩ := bind_eq_ok.mp e2
  rw [loop_nop (by
    intro k' hk' x
    obtain ⟨i, hi, rfl⟩ := List.mem_map.mp hk'
    have : n' (i + (k + 1)) = 0 := by
      simp only [n']; rw [if_neg (by omega), if_neg (by omega)]
    rw [this]; rfl)] at e4
  simp only [ok.injEq] at e4
  subst e4
  have hnk : n' k = j := by simp [n']
  rw [hnk] at e3
  rw [loop_congr (g := fun x k => loop (rdBody w chk S k (f k)) (List.range (n k)) x) (by
    intro k' hk' x
    have : n' k' = n k' := by simp only [n']; rw [if_pos (List.mem_range.mp hk')]
    rw [this])] at e1
  refine loop_throw hk e1 ?_
  refine loop_throw hj e3 ?_
  -- the molecule
  have hids : t.ids S k = (s.pool.res k).take j := by rw [hF.ids k hk, hnk]
  have hres : t.pool.res k = (s.pool.res k).drop j := by rw [hF.res k hk, hnk]
  have hjl : j < (s.pool.res k).length := hj.trans_le (hn k hk)
  have hres' : t.pool.res k = (s.pool.res k).getD j 0 :: (s.pool.res k).drop (j + 1) := by
    rw [hres, List.getD_eq_getElem _ _ hjl, List.drop_eq_getElem_cons hjl]
  have hlen : (t.ids S k).length = j := by rw [hids, List.length_take]; omega
  obtain ⟨p, ep, -⟩ := takeMol_ok hF.good chk (S := S) hk hres'
  unfold rdBody
  simp only [St.ids] at hlen
  rw [hlen] at ep
  simp only [ep, ok_bind]
  rw [hF.box, rdAtoms_throw _ ha _ (Z k j) (eff k j)
    (fun b hb x => hf k hk j hj b (hb.trans ha) (.inr ⟨rfl, .inr ⟨rfl, hb⟩⟩) x) ht, throw_bind]

/-- If each atom either can be read or not, and some cannot, reading fails. -/
theorem rdSystem_throw {σ : Type} {w : Sim} {chk : Bool} {S : ℕ} {n : ℕ → ℕ}
    (f : ℕ → B → ℕ → ℕ → ℕ → Atom → σ → Out (Atom × σ)) (Z : ℕ → ℕ → ℕ → σ)
    (eff : ℕ → ℕ → ℕ → Atom → Atom) (good : ℕ → ℕ → ℕ → Prop) {s : St B} (hp : PoolOK w s.pool)
    (he : ∀ k < w.nSp, s.ids S k = []) (hn : ∀ k < w.nSp, n k ≤ (s.pool.res k).length)
    (hf : ∀ k < w.nSp, ∀ j < n k, ∀ a < w.nAtom k, good k j a → ∀ x,
      f k s.box ((s.pool.res k).getD j 0) j a x (Z k j a) = ok (eff k j a x, Z k j (a + 1)))
    (ht : ∀ k < w.nSp, ∀ j < n k, ∀ a < w.nAtom k, ¬ good k j a → ∀ x,
      f k s.box ((s.pool.res k).getD j 0) j a x (Z k j a) = throw)
    (hZj : ∀ k < w.nSp, ∀ j < n k, Z k j (w.nAtom k) = Z k (j + 1) 0)
    (hZk : ∀ k < w.nSp, Z k (n k) 0 = Z (k + 1) 0 0)
    (hbad : ∃ k < w.nSp, ∃ j < n k, ∃ a < w.nAtom k, ¬ good k j a) :
    rdSystem w chk S n f (s, Z 0 0 0) = throw := by
  classical
  obtain ⟨hk, hbad'⟩ := Nat.find_spec hbad
  obtain ⟨hj, hbad''⟩ := Nat.find_spec hbad'
  obtain ⟨ha, hb⟩ := Nat.find_spec hbad''
  refine rdSystem_throw_at f Z eff hp he hn hk hj ha ?_ (ht _ hk _ hj _ ha hb) hZj hZk
  intro k' hk' j' hj' a' ha' hlt x
  refine hf k' hk' j' hj' a' ha' ?_ x
  by_contra hc
  rcases hlt with h | ⟨rfl, h | ⟨rfl, h⟩⟩
  · exact Nat.find_min hbad h ⟨hk', j', hj', a', ha', hc⟩
  · exact Nat.find_min hbad' h ⟨hj', a', ha', hc⟩
  · exact Nat.find_min hbad'' h ⟨ha', hc⟩

end Verif.McConfig
