/-
What the functions of the model compute: Rosenbluth weights and chosen positions.
-/
import Verif.Cfb.Model
import Verif.Cfb.Polar
import Verif.McMoves.Balance
import Verif.McMoves.Seq

set_option autoImplicit false

namespace Verif.Cfb

open Verif.Boundary Verif.McCellList Verif.McCell Verif.McMoves MeasureTheory
open Verif.Cpp
open Verif.Cpp.Out
open scoped ENNReal

/-! ### A system without some atoms -/

/-- The world without the atoms of `T`. -/
def sub (w : World) (T : Finset ℕ) : World :=
  { w with atoms := w.atoms \ T, molAtoms := fun m => (w.molAtoms m).filter (· ∉ T) }

variable {w : World} {lengths : Vec} {bravais : Fin 3 → Vec} {cutoff : ℝ}

theorem sub_ok (h : w.OK lengths bravais cutoff) (T : Finset ℕ) :
    (sub w T).OK lengths bravais cutoff where
  geo := h.geo
  dist := h.dist
  dsymm := h.dsymm
  cut := h.cut
  range := h.range
  psymm := h.psymm
  msymm := h.msymm
  molMem m a ha := by
    simp only [sub, List.mem_filter, decide_eq_true_eq] at ha
    simp only [sub, Finset.mem_sdiff]
    exact ⟨⟨(h.molMem m a ha.1).1, ha.2⟩, (h.molMem m a ha.1).2⟩
  molAll a ha := by
    simp only [sub, Finset.mem_sdiff] at ha
    simp only [sub, List.mem_filter, decide_eq_true_eq]
    exact ⟨h.molAll a ha.1, ha.2⟩
  molNodup m := (h.molNodup m).filter _
  bonded := h.bonded
  links := h.links

theorem sub_empty (w : World) : sub w ∅ = w := by
  unfold sub
  simp

/-- Pair energy of an atom with the atoms that are not in `T`. -/
noncomputable def pairWith (w : World) (t : ℕ → ℕ) (T : Finset ℕ) (a : ℕ) (p : Conf) : ℝ :=
  ∑ b ∈ w.atoms \ T, if b ≠ a then pairE w p t a b else 0

theorem pairWith_insert (w : World) (t : ℕ → ℕ) (T : Finset ℕ) (a : ℕ) (p : Conf) :
    pairWith w t (insert a T) a p = pairWith w t T a p := by
  unfold pairWith
  refine Finset.sum_subset ?_ ?_
  · exact Finset.sdiff_subset_sdiff (Finset.Subset.refl _) (Finset.subset_insert a T)
  · intro b hb hb'
    simp only [Finset.mem_sdiff, Finset.mem_insert, not_and, not_not, not_or] at hb hb'
    by_cases h : b = a
    · rw [if_neg (not_not.2 h)]
    · exact absurd (hb' hb.1 h) hb.2

/-! ### Sites -/

/-- Index of an atom of the molecule. -/
def Site (c : Chain) (i : ℤ) : Prop := 0 ≤ i ∧ i < c.nAtom

/-- The atoms between atom `i` and the end of the chain. -/
noncomputable def beyond (c : Chain) (sign i : ℤ) : Finset ℕ :=
  ((Finset.Ico 0 c.nAtom).filter fun j => 0 < sign * (j - i)).image c.atom

theorem beyond_step {c : Chain} {sign : ℤ} (hs : sign = 1 ∨ sign = -1) {i : ℤ} (hi : Site c i) :
    beyond c sign (i - sign) = insert (c.atom i) (beyond c sign i) := by
  unfold beyond
  rw [← Finset.image_insert]
  congr 1
  ext j
  simp only [Finset.mem_filter, Finset.mem_Ico, Finset.mem_insert]
  unfold Site at hi
  rcases hs with rfl | rfl <;> omega

/-- Energy of an atom without its bond, as a function of the configuration. -/
noncomputable def restE (w : World) (c : Chain) (t : ℕ → ℕ) (sign i : ℤ) (p : Conf) : ℝ :=
  pairWith w t (beyond c sign i) (c.atom i) p
    + (if hasAngle c sign i then c.angleE (dot
        ((Real.sqrt (w.dsq (p (c.atom (i - sign))) (p (c.atom i))))⁻¹ •
          c.dvec (p (c.atom (i - sign))) (p (c.atom i)))
        ((Real.sqrt (w.dsq (p (c.atom (i - 2 * sign))) (p (c.atom (i - sign)))))⁻¹ •
          c.dvec (p (c.atom (i - 2 * sign))) (p (c.atom (i - sign)))))
        (c.bondType (angleId sign i)) else 0)
    + w.ext (p (c.atom i)) (t (c.atom i))

/-- Boltzmann factor of that energy. -/
noncomputable def φOf (w : World) (c : Chain) (t : ℕ → ℕ) (sign i : ℤ) (p : Conf) : ℝ :=
  Real.exp (-w.beta * restE w c t sign i p)

/-- Length of the bond of an atom. -/
noncomputable def lenOf (w : World) (c : Chain) (sign i : ℤ) (p : Conf) : ℝ :=
  Real.sqrt (w.dsq (p (c.atom i)) (p (c.atom (i - sign))))

/-- What is assumed about a molecule: its atoms, and the separations computed by the boundary. -/
structure Chain.OK (w : World) (c : Chain) (bravais : Fin 3 → Vec) (R : ℝ) : Prop where
  pos : 0 < R
  wide : Wide bravais R
  exact : ExactBelow w.gen bravais w.dsq R
  wraps : Wraps w bravais R
  inj : ∀ i j, Site c i → Site c j → c.atom i = c.atom j → i = j
  mem : ∀ i, Site c i → c.atom i ∈ w.atoms
  image : ∀ r r', ∃ k, c.dvec r r' = r - r' + latComb bravais k
  normSq : ∀ r r', normSq (c.dvec r r') = w.dsq r r'

/-- The bond vector of a trial position. -/
theorem trial_dvec (ok : w.OK lengths bravais cutoff) {c : Chain} {R : ℝ}
    (hc : c.OK w bravais R) {r u : Vec} {ℓ : ℝ} (hr : r ∈ cell w.gen) (hu : Boundary.normSq u = 1)
    (h0 : 0 ≤ ℓ) (h1 : ℓ < R) :
    w.shift (r - ℓ • u) = reduce w.gen bravais (r - ℓ • u) ∧
      w.shift (r - ℓ • u) ∈ cell w.gen ∧
      c.dvec r (w.shift (r - ℓ • u)) = ℓ • u ∧ w.dsq r (w.shift (r - ℓ • u)) = ℓ ^ 2 := by
  have hd : -(ℓ • u) ∈ displacements R := by
    intro i _
    have hle : u i ^ 2 ≤ 1 := by
      rw [← hu]
      unfold Boundary.normSq
      fin_cases i <;> simp <;> nlinarith [sq_nonneg (u 0), sq_nonneg (u 1), sq_nonneg (u 2)]
    have h2 := abs_le_one_iff_mul_self_le_one.2 (by nlinarith : u i * u i ≤ 1)
    rw [abs_le] at h2
    have hpos := hc.pos
    simp only [Pi.neg_apply, Pi.smul_apply, smul_eq_mul, Set.mem_Ico]
    constructor <;> nlinarith
  have hw := hc.wraps r hr _ hd
  have hred := hc.wraps.reduce ok.geo hr hd
  rw [← sub_eq_add_neg] at hw hred
  obtain ⟨k, hk⟩ := mem_lattice.1 hw.2
  obtain ⟨x, hx⟩ : ∃ x, x = w.shift (r - ℓ • u) := ⟨_, rfl⟩
  rw [← hx] at hw hk hred ⊢
  have hneg : latComb bravais (-k) = -latComb bravais k := by
    have := latComb_add bravais (-k) k
    rw [neg_add_cancel] at this
    have hz : latComb bravais 0 = 0 := by simp [latComb]
    rw [hz] at this
    exact (neg_eq_of_add_eq_zero_left this.symm).symm
  have e1 : r - x + latComb bravais k = ℓ • u := by rw [hk]; abel
  have hshort : Boundary.normSq (r - x + latComb bravais k) < R ^ 2 := by
    rw [e1, normSq_smul, hu]
    nlinarith
  have hlt := hc.exact r x hr hw.1 ⟨k, hshort⟩
  obtain ⟨k', hk'⟩ := hc.image r x
  have hn := hc.normSq r x
  have e2 : c.dvec r x = ℓ • u := by
    rw [hk', ← e1, short_unique hc.wide (k := k') (k' := k) (v := r - x) (by
      rw [← hk', hn]; exact hlt) hshort]
  refine ⟨hred, hw.1, e2, ?_⟩
  rw [← hn, e2, normSq_smul, hu, mul_one]

/-! ### Energies of trial positions -/

theorem trialE_ok (ok : w.OK lengths bravais cutoff) {c : Chain} {sign i : ℤ} {s : Sys} {q : Conf}
    {T : Finset ℕ} (hT : T = beyond c sign i ∨ T = insert (c.atom i) (beyond c sign i))
    (h : At (sub w T) lengths cutoff s.cells q) (hr : s.pos (c.atom i) ∈ cell w.gen)
    (hq : ∀ b ∈ w.atoms \ T, b ≠ c.atom i → q b = s.pos b) {u : Vec}
    (hu : hasAngle c sign i = true → u =
      (Real.sqrt (w.dsq (s.pos (c.atom (i - sign))) (s.pos (c.atom i))))⁻¹ •
          c.dvec (s.pos (c.atom (i - sign))) (s.pos (c.atom i))) :
    trialE w c s sign i u = .ok (restE w c s.typ sign i s.pos) := by
  have h1 : atomPair w s (c.atom i) = .ok (pairWith w s.typ T (c.atom i) s.pos) :=
    atomPair_ok (sub_ok ok T) h hr fun b hb hne _ => hq b hb hne
  have h2 : pairWith w s.typ T (c.atom i) s.pos =
      pairWith w s.typ (beyond c sign i) (c.atom i) s.pos := by
    rcases hT with rfl | rfl
    · rfl
    · exact pairWith_insert w s.typ _ _ s.pos
  unfold trialE
  rw [h1, h2, ok_bind]
  congr 1
  unfold restE nextUnit
  congr 2
  by_cases ha : hasAngle c sign i = true
  · rw [if_pos ha, if_pos ha, hu ha]
  · rw [if_neg ha, if_neg ha]

/-- Trial position of an atom. -/
noncomputable def trialPos (w : World) (bravais : Fin 3 → Vec) (c : Chain) (sign i : ℤ) (p : Conf)
    (ℓ : ℝ) (u : Vec) : Vec := reduce w.gen bravais (p (c.atom (i - sign)) - ℓ • u)

/-- The atom at a trial position. -/
theorem trial_ok (ok : w.OK lengths bravais cutoff) {c : Chain} {R : ℝ} (hc : c.OK w bravais R)
    {sign i : ℤ} (hs : sign = 1 ∨ sign = -1) (hi : Site c i) (hi' : Site c (i - sign))
    {s s' : Sys} {q : Conf}
    {T : Finset ℕ} (hT : T = beyond c sign i ∨ T = insert (c.atom i) (beyond c sign i))
    (h : At (sub w T) lengths cutoff s.cells q)
    (hb : s.pos (c.atom (i - sign)) ∈ cell w.gen)
    (hq : ∀ b ∈ w.atoms \ T, b ≠ c.atom i → q b = s.pos b) {u : Vec} {ℓ : ℝ}
    (hu : normSq u = 1) (h0 : 0 < ℓ) (h1 : ℓ < R) {y : Vec}
    (hs' : s' = (s.setPos (c.atom i) y).setPos (c.atom i)
      (w.shift (s.pos (c.atom (i - sign)) - ℓ • u))) :
    s' = s.setPos (c.atom i) (trialPos w bravais c sign i s.pos ℓ u) ∧
      trialPos w bravais c sign i s.pos ℓ u ∈ cell w.gen ∧
      trialE w c s' sign i u = .ok (restE w c s.typ sign i
        (Function.update s.pos (c.atom i) (trialPos w bravais c sign i s.pos ℓ u))) := by
  obtain ⟨e1, e2, e3, e4⟩ := trial_dvec ok hc hb hu h0.le h1
  have hne : c.atom (i - sign) ≠ c.atom i := fun he => by
    have := hc.inj _ _ hi' hi he
    rcases hs with rfl | rfl <;> omega
  have hx : w.shift (s.pos (c.atom (i - sign)) - ℓ • u) = trialPos w bravais c sign i s.pos ℓ u := e1
  rw [hx] at hs' e2 e3 e4
  have hs2 : s' = s.setPos (c.atom i) (trialPos w bravais c sign i s.pos ℓ u) := by
    rw [hs']
    simp only [Sys.setPos, Function.update_idem]
  refine ⟨hs2, e2, ?_⟩
  rw [hs2]
  refine trialE_ok ok hT (s := s.setPos (c.atom i) _) h ?_ ?_ ?_
  · simp only [Function.update_self]
    exact e2
  · intro b hb' hne'
    simp only [Function.update_of_ne hne']
    exact hq b hb' hne'
  · intro _
    simp only [Function.update_self, Function.update_of_ne hne]
    rw [e3, e4, Real.sqrt_sq h0.le, smul_smul, inv_mul_cancel₀ h0.ne', one_smul]

/-! ### Removing an atom -/

theorem deleteAtom_ok (ok : w.OK lengths bravais cutoff) {c : Chain} {R : ℝ} (hc : c.OK w bravais R)
    {sign i : ℤ} (hs : sign = 1 ∨ sign = -1) (hi : Site c i) (hi' : Site c (i - sign))
    {s : Sys} {q : Conf} (h : At (sub w (beyond c sign i)) lengths cutoff s.cells q)
    (ha : s.pos (c.atom i) ∈ cell w.gen) (hb : s.pos (c.atom (i - sign)) ∈ cell w.gen)
    (hq : ∀ b ∈ w.atoms \ beyond c sign i, b ≠ c.atom i → q b = s.pos b)
    (h0 : 0 < lenOf w c sign i s.pos) (h1 : lenOf w c sign i s.pos < R) {us : List Vec}
    (hu : ∀ u ∈ us, normSq u = 1) :
    ∃ y ∈ cell w.gen, deleteAtom w c sign i us s = .ok (s.setPos (c.atom i) y,
      φOf w c s.typ sign i s.pos + (us.map fun u => φOf w c s.typ sign i
        (Function.update s.pos (c.atom i)
          (trialPos w bravais c sign i s.pos (lenOf w c sign i s.pos) u))).sum) := by
  have hlen : Real.sqrt (w.dsq (s.pos (c.atom (i - sign))) (s.pos (c.atom i))) =
      lenOf w c sign i s.pos := by
    unfold lenOf
    rw [ok.dsymm]
  unfold deleteAtom
  dsimp only
  rw [trialE_ok ok (Or.inl rfl) h ha hq fun _ => rfl, ok_bind, hlen]
  have key : ∀ (l : List Vec), (∀ u ∈ l, normSq u = 1) → ∀ (y : Vec) (acc : ℝ), y ∈ cell w.gen →
      ∃ y' ∈ cell w.gen, Out.loop (fun (st : Sys × ℝ) u => do
        let s1 := st.1.setPos (c.atom i)
          (w.shift (s.pos (c.atom (i - sign)) - lenOf w c sign i s.pos • u))
        let e ← trialE w c s1 sign i u
        Out.ok (s1, st.2 + boltzmann w e)) l (s.setPos (c.atom i) y, acc) =
      Out.ok (s.setPos (c.atom i) y', acc + (l.map fun u => φOf w c s.typ sign i
        (Function.update s.pos (c.atom i)
          (trialPos w bravais c sign i s.pos (lenOf w c sign i s.pos) u))).sum) := by
    intro l
    induction l with
    | nil =>
      intro _ y acc hy
      exact ⟨y, hy, by simp⟩
    | cons u l ih =>
      intro hl y acc hy
      obtain ⟨f1, f2, f3⟩ := trial_ok ok hc hs hi hi' (Or.inl rfl) h hb hq
        (hl u List.mem_cons_self) h0 h1 (y := y) rfl
      obtain ⟨y', g1, g2⟩ := ih (fun v hv => hl v (List.mem_cons_of_mem _ hv))
        (trialPos w bravais c sign i s.pos (lenOf w c sign i s.pos) u)
        (acc + φOf w c s.typ sign i (Function.update s.pos (c.atom i)
          (trialPos w bravais c sign i s.pos (lenOf w c sign i s.pos) u))) f2
      refine ⟨y', g1, ?_⟩
      rw [f1] at f3
      rw [loop_cons]
      dsimp only
      rw [f1, f3, ok_bind, ok_bind]
      rw [List.map_cons, List.sum_cons, ← add_assoc]
      exact g2
  obtain ⟨y', g1, g2⟩ := key us hu (s.pos (c.atom i)) (boltzmann w (restE w c s.typ sign i s.pos)) ha
  refine ⟨y', g1, ?_⟩
  have e : s.setPos (c.atom i) (s.pos (c.atom i)) = s := by
    simp only [Sys.setPos, Function.update_eq_self]
  rw [e] at g2
  exact g2

/-! ### Choosing among probabilities -/

/-- The index chosen by `drawFrom`. -/
noncomputable def pick : List ℝ → ℝ → ℕ
  | [], _ => 0
  | p :: ps, roll => by classical exact if roll < p then 0 else pick ps (roll - p) + 1

theorem drawFrom_ok : ∀ (ps : List ℝ) (roll : ℝ), roll < ps.sum → 0 ≤ roll →
    drawFrom ps roll = .ok (pick ps roll) ∧ pick ps roll < ps.length := by
  intro ps
  induction ps with
  | nil => intro roll h h0; simp at h; linarith
  | cons p ps ih =>
    intro roll h h0
    rw [List.sum_cons] at h
    unfold drawFrom pick
    by_cases hp : roll < p
    · rw [if_pos hp, if_pos hp]
      exact ⟨rfl, by simp⟩
    · rw [if_neg hp, if_neg hp]
      obtain ⟨e1, e2⟩ := ih (roll - p) (by linarith) (by linarith)
      rw [e1]
      exact ⟨rfl, by simpa using e2⟩

/-- Every index is chosen with its probability. -/
theorem lintegral_pick : ∀ (ps : List ℝ), (∀ p ∈ ps, 0 ≤ p) → ∀ f : ℕ → ℝ≥0∞,
    ∫⁻ x in Set.Ico 0 ps.sum, f (pick ps x) =
      ∑ j : Fin ps.length, ENNReal.ofReal ps[j] * f j := by
  intro ps
  induction ps with
  | nil => intro _ f; simp
  | cons p ps ih =>
    intro hp f
    have hp0 : 0 ≤ p := hp p List.mem_cons_self
    have hps : ∀ x ∈ ps, 0 ≤ x := fun x hx => hp x (List.mem_cons_of_mem _ hx)
    have hS : 0 ≤ ps.sum := List.sum_nonneg hps
    have hun : Set.Ico 0 (p :: ps).sum = Set.Ico 0 p ∪ Set.Ico p (p + ps.sum) := by
      rw [List.sum_cons, Set.Ico_union_Ico_eq_Ico hp0 (by linarith)]
    have hdis : Disjoint (Set.Ico 0 p) (Set.Ico p (p + ps.sum)) :=
      Set.disjoint_left.2 fun x hx hx' => absurd hx.2 (not_lt.2 hx'.1)
    rw [hun, lintegral_union measurableSet_Ico hdis]
    have e1 : ∫⁻ x in Set.Ico 0 p, f (pick (p :: ps) x) = ENNReal.ofReal p * f 0 := by
      rw [setLIntegral_congr_fun (g := fun _ => f 0) measurableSet_Ico]
      · rw [setLIntegral_const, Real.volume_Ico, sub_zero, mul_comm]
      · intro x hx
        simp only [pick, if_pos hx.2]
    have e2 : ∫⁻ x in Set.Ico p (p + ps.sum), f (pick (p :: ps) x) =
        ∫⁻ x in Set.Ico 0 ps.sum, f (pick ps x + 1) := by
      rw [← lintegral_indicator measurableSet_Ico, ← lintegral_indicator measurableSet_Ico,
        ← lintegral_add_right_eq_self _ p]
      refine lintegral_congr fun x => ?_
      by_cases hx : x ∈ Set.Ico 0 ps.sum
      · rw [Set.indicator_of_mem hx, Set.indicator_of_mem
          (show x + p ∈ Set.Ico p (p + ps.sum) from ⟨by linarith [hx.1], by linarith [hx.2]⟩)]
        have hn : ¬ x + p < p := by linarith [hx.1]
        simp only [pick, if_neg hn, add_sub_cancel_right]
      · rw [Set.indicator_of_notMem hx, Set.indicator_of_notMem]
        exact fun h => hx ⟨by linarith [h.1], by linarith [h.2]⟩
    rw [e1, e2, ih hps fun j => f (j + 1)]
    change _ = ∑ j : Fin (ps.length + 1), ENNReal.ofReal ((p :: ps)[j.1]'(by simpa using j.2)) * f j.1
    rw [Fin.sum_univ_succ]
    simp

/-! ### Adding an atom -/

/-- Boltzmann factors of the trial positions. -/
noncomputable def factors (w : World) (bravais : Fin 3 → Vec) (c : Chain) (t : ℕ → ℕ) (sign i : ℤ)
    (p : Conf) (ℓ : ℝ) (us : List Vec) : List ℝ :=
  us.map fun u => φOf w c t sign i
    (Function.update p (c.atom i) (trialPos w bravais c sign i p ℓ u))

theorem trials_ok (ok : w.OK lengths bravais cutoff) {c : Chain} {R : ℝ} (hc : c.OK w bravais R)
    {sign i : ℤ} (hs : sign = 1 ∨ sign = -1) (hi : Site c i) (hi' : Site c (i - sign))
    {s : Sys} {q : Conf}
    (h : At (sub w (insert (c.atom i) (beyond c sign i))) lengths cutoff s.cells q)
    (hb : s.pos (c.atom (i - sign)) ∈ cell w.gen)
    (hq : ∀ b ∈ w.atoms \ insert (c.atom i) (beyond c sign i), q b = s.pos b) {ℓ : ℝ}
    (h0 : 0 < ℓ) (h1 : ℓ < R) {us : List Vec} (hu : ∀ u ∈ us, normSq u = 1) :
    ∃ y, trials w c sign i ℓ us s = .ok (s.setPos (c.atom i) y,
      (us.map (trialPos w bravais c sign i s.pos ℓ)).zip
        (factors w bravais c s.typ sign i s.pos ℓ us)) := by
  unfold trials
  have key : ∀ (l : List Vec), (∀ u ∈ l, normSq u = 1) → ∀ (y : Vec) (acc : List (Vec × ℝ)),
      ∃ y', Out.loop (fun (st : Sys × List (Vec × ℝ)) u => do
        let x := w.shift (s.pos (c.atom (i - sign)) - ℓ • u)
        let s1 := st.1.setPos (c.atom i) x
        let e ← trialE w c s1 sign i u
        Out.ok (s1, st.2 ++ [(x, boltzmann w e)])) l (s.setPos (c.atom i) y, acc) =
      Out.ok (s.setPos (c.atom i) y', acc ++ (l.map (trialPos w bravais c sign i s.pos ℓ)).zip
        (factors w bravais c s.typ sign i s.pos ℓ l)) := by
    intro l
    induction l with
    | nil =>
      intro _ y acc
      exact ⟨y, by simp⟩
    | cons u l ih =>
      intro hl y acc
      have hul := hl u List.mem_cons_self
      obtain ⟨f1, f2, f3⟩ := trial_ok ok hc hs hi hi' (Or.inr rfl) h hb (fun b hb' _ => hq b hb')
        hul h0 h1 (y := y) rfl
      have f0 : w.shift (s.pos (c.atom (i - sign)) - ℓ • u) = trialPos w bravais c sign i s.pos ℓ u :=
        (trial_dvec ok hc hb hul h0.le h1).1
      obtain ⟨y', g2⟩ := ih (fun v hv => hl v (List.mem_cons_of_mem _ hv))
        (trialPos w bravais c sign i s.pos ℓ u)
        (acc ++ [(trialPos w bravais c sign i s.pos ℓ u, φOf w c s.typ sign i (Function.update s.pos (c.atom i)
          (trialPos w bravais c sign i s.pos ℓ u)))])
      refine ⟨y', ?_⟩
      rw [f1] at f3
      rw [loop_cons]
      dsimp only
      rw [f1, f3, ok_bind, ok_bind]
      rw [f0]
      rw [List.append_assoc] at g2
      exact g2
  obtain ⟨y', g2⟩ := key us hu (s.pos (c.atom i)) []
  have e : s.setPos (c.atom i) (s.pos (c.atom i)) = s := by
    simp only [Sys.setPos, Function.update_eq_self]
  rw [e] at g2
  exact ⟨y', g2⟩

/-- Probabilities of the trial positions. -/
noncomputable def probs (l : List ℝ) : List ℝ := l.map (· / l.sum)

theorem addAtom_ok (ok : w.OK lengths bravais cutoff) {c : Chain} {R : ℝ} (hc : c.OK w bravais R)
    {sign i : ℤ} (hs : sign = 1 ∨ sign = -1) (hi : Site c i) (hi' : Site c (i - sign))
    {s : Sys} {q : Conf}
    (h : At (sub w (insert (c.atom i) (beyond c sign i))) lengths cutoff s.cells q)
    (ht : s.typ (c.atom i) = c.atomType i)
    (hb : s.pos (c.atom (i - sign)) ∈ cell w.gen)
    (hq : ∀ b ∈ w.atoms \ insert (c.atom i) (beyond c sign i), q b = s.pos b) {ℓ : ℝ}
    (h0 : 0 < ℓ) (h1 : ℓ < R) {us : List Vec} (hu : ∀ u ∈ us, normSq u = 1) (hne : us ≠ [])
    {roll : ℝ} (hr0 : 0 ≤ roll) (hr1 : roll < 1) :
    ∃ hj : pick (probs (factors w bravais c s.typ sign i s.pos ℓ us)) roll < us.length,
      addAtom w c sign i ℓ us roll s = .ok (s.setPos (c.atom i) (trialPos w bravais c sign i s.pos ℓ
        us[pick (probs (factors w bravais c s.typ sign i s.pos ℓ us)) roll]),
          (factors w bravais c s.typ sign i s.pos ℓ us).sum) := by
  obtain ⟨y, hy⟩ := trials_ok ok hc hs hi hi' h hb hq h0 h1 hu
  obtain ⟨fs, hfs⟩ : ∃ fs, fs = factors w bravais c s.typ sign i s.pos ℓ us := ⟨_, rfl⟩
  have hlen : fs.length = us.length := by rw [hfs]; simp [factors]
  have hpos : 0 < fs.sum := by
    refine List.sum_pos _ ?_ ?_
    · intro x hx
      rw [hfs] at hx
      obtain ⟨u, _, rfl⟩ := List.mem_map.1 hx
      exact Real.exp_pos _
    · intro h
      rw [h] at hlen
      exact hne (List.length_eq_zero_iff.1 hlen.symm)
  rw [← hfs] at hy ⊢
  have hsnd : ((us.map (trialPos w bravais c sign i s.pos ℓ)).zip fs).map Prod.snd = fs :=
    List.map_snd_zip (by simp [hlen])
  have hprob : ((us.map (trialPos w bravais c sign i s.pos ℓ)).zip fs).map (fun x => x.2 / fs.sum) =
      probs fs := by
    unfold probs
    conv_rhs => rw [← hsnd, List.map_map, hsnd]
    rfl
  have hsum : (probs fs).sum = 1 := by
    unfold probs
    have : (fs.map (· / fs.sum)).sum = fs.sum / fs.sum := by
      have := List.sum_map_mul_right (r := fs.sum⁻¹) (l := fs) (f := id)
      simpa [div_eq_mul_inv] using this
    rw [this, div_self hpos.ne']
  obtain ⟨d1, d2⟩ := drawFrom_ok (probs fs) roll (by rw [hsum]; exact hr1) hr0
  have d3 : pick (probs fs) roll < us.length := by
    rw [← hlen]
    simpa [probs] using d2
  refine ⟨d3, ?_⟩
  unfold addAtom
  rw [require_true ht, ok_bind, hy, ok_bind]
  dsimp only
  rw [hsnd, hprob, d1, ok_bind]
  have hget : ((us.map (trialPos w bravais c sign i s.pos ℓ)).zip fs)[pick (probs fs) roll]? =
      some (trialPos w bravais c sign i s.pos ℓ us[pick (probs fs) roll],
        fs[pick (probs fs) roll]'(by rw [hlen]; exact d3)) := by
    rw [List.getElem?_eq_getElem (by simp [hlen, d3])]
    simp
  rw [hget]
  simp only [Sys.setPos, Function.update_idem]

end Verif.Cfb
