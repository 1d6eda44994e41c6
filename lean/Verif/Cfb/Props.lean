/-
C62: configurational-bias moves of chain ends satisfy detailed balance.
-/
import Verif.Cfb.Energy

set_option autoImplicit false

namespace Verif.Cfb

open Verif.Boundary Verif.McCellList Verif.McCell Verif.McMoves MeasureTheory
open Verif.Cpp
open scoped ENNReal

variable {w : World} {lengths : Vec} {bravais : Fin 3 → Vec} {cutoff : ℝ}

/-- Configurations in which the bonds of the regrown atoms are shorter than `R` (and not of length
zero). -/
def Short (w : World) (c : Chain) (n : ℕ) (e R : ℝ) : Set Conf :=
  {q | ∀ j ∈ regrown c n (signOf e), 0 < lenOf w c (signOf e) j q ∧ lenOf w c (signOf e) j q < R}

/-- Probability that the move, with `m + 1` trials, is accepted and leads to a configuration in
`B`: expectation over directions and lengths of bonds, and over the deviates that choose a trial
and decide on acceptance.  Only bonds shorter than `R` are counted. -/
noncomputable def moveProb (w : World) (c : Chain) (n m : ℕ) (e R : ℝ) (law : ℕ → Measure ℝ)
    (B : Set Conf) (s : Sys) : ℝ≥0∞ :=
  expDel direction m n fun dels =>
    expGrow direction (m + 1) ((regrown c n (signOf e)).map fun i =>
      (law (c.bondType (bondId (signOf e) i))).restrict (Set.Iio R)) fun grows =>
        prob fun v => ∃ s', endMove w c n e dels grows v s = .ok (s', true) ∧ s'.pos ∈ B

/-- Flow from `A` to `B`: integral over the positions of the regrown atoms. -/
noncomputable def endFlow (w : World) (c : Chain) (n m : ℕ) (e R : ℝ) (law : ℕ → Measure ℝ)
    (st : Conf → Sys) (A B : Set Conf) (p : Conf) : ℝ≥0∞ :=
  sweep (cell w.gen) ((regrown c n (signOf e)).map c.atom) (fun q =>
    A.indicator 1 q * boltzmannWeight w (st q) * moveProb w c n m e R law B (st q)) p

theorem growPure_pos {c : Chain} {t : ℕ → ℕ} {sign : ℤ} {R : ℝ} {k : ℕ} (hk : 0 < k) :
    ∀ (l : List ℤ) (gs : List (ℝ × List Vec × ℝ)) (p : Conf), (∀ g ∈ gs, Draw R k g) →
    0 < (growPure w bravais c t sign l gs p).2 := by
  intro l
  induction l with
  | nil => intro gs p _; simp [growPure]
  | cons i l ih =>
    intro gs p hg
    cases gs with
    | nil => simp [growPure]
    | cons g gs =>
      simp only [growPure]
      refine mul_pos (List.sum_pos _ ?_ ?_) (ih _ _ fun x hx => hg x (List.mem_cons_of_mem _ hx))
      · intro x hx
        obtain ⟨u, _, rfl⟩ := List.mem_map.1 hx
        exact Real.exp_pos _
      · have := (hg g List.mem_cons_self).2.2.1
        intro h0
        have h1 := congrArg List.length h0
        simp only [factors, List.length_map, List.length_nil] at h1
        omega

theorem delW_pos {c : Chain} {t : ℕ → ℕ} {sign : ℤ} (p : Conf) (l : List ℤ) (dels : List (List Vec)) :
    0 < delW w bravais c t sign p l dels := by
  unfold delW
  refine List.prod_pos fun x hx => ?_
  obtain ⟨y, _, rfl⟩ := List.mem_map.1 hx
  refine add_pos_of_pos_of_nonneg (Real.exp_pos _) (List.sum_nonneg fun z hz => ?_)
  obtain ⟨u, _, rfl⟩ := List.mem_map.1 hz
  exact (Real.exp_pos _).le

/-- **C62 (probability of the move).**  The probability of a move to `B` in terms of Rosenbluth
weights. -/
theorem moveProb_eq (ok : w.OK lengths bravais cutoff) {c : Chain} {R : ℝ} (hc : c.OK w bravais R)
    (hcap : w.atoms.card < w.cellCap) {n m : ℕ} (hn : (n : ℤ) < c.nAtom) {e : ℝ} {law : ℕ → Measure ℝ}
    {cst κ : ℕ → ℝ≥0∞} (hlaw : ∀ i ∈ regrown c n (signOf e), LengthLaw w.beta
      (fun x => c.bondE x (c.bondType (bondId (signOf e) i))) R
      (law (c.bondType (bondId (signOf e) i))) (cst (c.bondType (bondId (signOf e) i))))
    {s : Sys} (h : At w lengths cutoff s.cells s.pos)
    (ht : ∀ j, Site c j → s.typ (c.atom j) = c.atomType j) (hshort : s.pos ∈ Short w c n e R)
    (B : Set Conf) :
    moveProb w c n m e R law B s =
      avgP (Measure.pi fun _ : Fin m => direction) (weights (reduce w.gen bravais) m
        ((regrown c n (signOf e)).map (stepOf w c s.typ (signOf e) R law κ)) s.pos).reverse fun Wr =>
        grow (reduce w.gen bravais) direction m
          ((regrown c n (signOf e)).map (stepOf w c s.typ (signOf e) R law κ)) s.pos fun q' Wf =>
            B.indicator 1 q' * ENNReal.ofReal (min 1 (Wf / Wr)) := by
  have hlen : (regrown c n (signOf e)).reverse.length = n := by
    have : ∀ (a b : ℤ) (k : ℕ), (ids a b k).length = k := fun a b k => by
      induction k generalizing a with
      | zero => rfl
      | succ k ih => simp [ids, ih]
    rw [List.length_reverse]
    exact this _ _ _
  have hrev : (weights (reduce w.gen bravais) m
      ((regrown c n (signOf e)).map (stepOf w c s.typ (signOf e) R law κ)) s.pos).reverse =
      weights (reduce w.gen bravais) m
        ((regrown c n (signOf e)).reverse.map (stepOf w c s.typ (signOf e) R law κ)) s.pos := by
    unfold weights
    rw [List.map_reverse, List.map_reverse]
  rw [hrev, ← expDel_delW, hlen]
  unfold moveProb
  refine expDel_congr direction_unit fun dels hd hdu => ?_
  rw [← expGrow_growPure]
  refine expGrow_congr (R := R) direction_unit ?_ fun grows hg hgd => ?_
  · intro ρ hρ
    obtain ⟨i, hi, rfl⟩ := List.mem_map.1 hρ
    exact law_range (hlaw i hi)
  · rw [List.length_map, ← List.length_reverse (as := regrown c n (signOf e)), hlen] at hg
    obtain ⟨⟨q', Wf⟩, hq⟩ : ∃ r, r = growPure w bravais c s.typ (signOf e)
      (regrown c n (signOf e)) grows s.pos := ⟨_, rfl⟩
    obtain ⟨Wr, hWr⟩ : ∃ W, W = delW w bravais c s.typ (signOf e) s.pos
      (regrown c n (signOf e)).reverse dels := ⟨_, rfl⟩
    have hWf : 0 < Wf := by
      have := growPure_pos (w := w) (bravais := bravais) (c := c) (t := s.typ) (sign := signOf e)
        (Nat.succ_pos m) (regrown c n (signOf e)) grows s.pos hgd
      rw [← hq] at this
      exact this
    have hWr0 : 0 < Wr := by rw [hWr]; exact delW_pos _ _ _
    rw [← hq, ← hWr]
    dsimp only
    by_cases hB : q' ∈ B
    · rw [Set.indicator_of_mem hB, Pi.one_apply, one_mul, ← prob_metropolis (div_pos hWf hWr0).le]
      refine prob_congr fun v _ _ => ?_
      obtain ⟨s', f1, -, f3, -⟩ := endMove_ok ok hc hcap hn (Nat.succ_pos m) h ht hshort hd hdu hg hgd v hq hWr
      rw [f1]
      constructor
      · rintro ⟨s'', g1, -⟩
        exact congrArg Prod.snd (Out.ok.inj g1)
      · intro hm
        refine ⟨s', by rw [hm], ?_⟩
        rw [f3, if_pos hm]
        exact hB
    · rw [Set.indicator_of_notMem hB, zero_mul, ← prob_false]
      refine prob_congr fun v _ _ => ?_
      obtain ⟨s', f1, -, f3, -⟩ := endMove_ok ok hc hcap hn (Nat.succ_pos m) h ht hshort hd hdu hg hgd v hq hWr
      rw [f1]
      refine iff_false_intro ?_
      rintro ⟨s'', g1, g2⟩
      have e1 := congrArg Prod.fst (Out.ok.inj g1)
      have e2 := congrArg Prod.snd (Out.ok.inj g1)
      dsimp only at e1 e2
      rw [← e1, f3, if_pos e2] at g2
      exact hB g2

/-- **C62 (the move).**  For bonds shorter than `R`, whatever the random numbers are, the move
completes; the cell list fits the positions afterwards, types are kept, atoms that are not regrown
stay where they are, a rejected move restores all positions, and the move is counted. -/
theorem C62_move (ok : w.OK lengths bravais cutoff) {c : Chain} {R : ℝ} (hc : c.OK w bravais R)
    (hcap : w.atoms.card < w.cellCap) {n k : ℕ} (hn : (n : ℤ) < c.nAtom) (hk : 0 < k) {e : ℝ} {s : Sys}
    (h : At w lengths cutoff s.cells s.pos) (ht : ∀ j, Site c j → s.typ (c.atom j) = c.atomType j)
    (hs : s.pos ∈ Short w c n e R) {dels : List (List Vec)} (hd : dels.length = n)
    (hdu : ∀ us ∈ dels, ∀ u ∈ us, normSq u = 1) {grows : List (ℝ × List Vec × ℝ)}
    (hg : grows.length = n) (hgd : ∀ g ∈ grows, Draw R k g) (v : ℝ) :
    ∃ s' acc, endMove w c n e dels grows v s = .ok (s', acc) ∧ At w lengths cutoff s'.cells s'.pos ∧
      s'.typ = s.typ ∧ (∀ b, b ∉ (regrown c n (signOf e)).map c.atom → s'.pos b = s.pos b) ∧
      (acc = false → s'.pos = s.pos) ∧ s'.nAttempt = s.nAttempt + 1 ∧
      s'.nAccept = s.nAccept + (if acc = true then 1 else 0) := by
  obtain ⟨⟨q', Wf⟩, hq⟩ : ∃ r, r = growPure w bravais c s.typ (signOf e)
    (regrown c n (signOf e)) grows s.pos := ⟨_, rfl⟩
  obtain ⟨s', f1, f2, f3, f4, f5, f6⟩ := endMove_ok ok hc hcap hn hk h ht hs hd hdu hg hgd v hq rfl
  refine ⟨s', _, f1, f2, f4, fun b hb => ?_, fun hr => ?_, f5, f6⟩
  · rw [f3]
    split
    · have := growPure_off (w := w) (bravais := bravais) c s.typ (signOf e)
        (regrown c n (signOf e)) grows s.pos b hb
      rw [← hq] at this
      exact this
    · rfl
  · rw [f3, if_neg (by rw [hr]; simp)]

/-- **C62.**  Detailed balance of configurational-bias moves of chain ends: for either end, the
flow from `A` to `B` equals the flow from `B` to `A`, for any positions of the other atoms and all
sets of configurations whose regrown bonds are shorter than `R`. -/
theorem C62_end_partial (ok : w.OK lengths bravais cutoff) {c : Chain} {R : ℝ} (hc : c.OK w bravais R)
    (hm : Meas w c) (hcap : w.atoms.card < w.cellCap) {n : ℕ} (m : ℕ) (hn : (n : ℤ) < c.nAtom) {e : ℝ}
    (hl : Linear w c (regrown c n (signOf e))) {law : ℕ → Measure ℝ} {cst : ℕ → ℝ≥0∞}
    (hlaw : ∀ i ∈ regrown c n (signOf e), LengthLaw w.beta
      (fun x => c.bondE x (c.bondType (bondId (signOf e) i))) R
      (law (c.bondType (bondId (signOf e) i))) (cst (c.bondType (bondId (signOf e) i))))
    (hcst : ∀ t, cst t ≠ 0 ∧ cst t ≠ ∞) {t : ℕ → ℕ} (ht : ∀ j, Site c j → t (c.atom j) = c.atomType j)
    {st : Conf → Sys} (hst : ∀ q, (∀ b ∈ w.atoms, q b ∈ cell w.gen) →
      (st q).pos = q ∧ (st q).typ = t ∧ At w lengths cutoff (st q).cells q)
    {p : Conf} (hp : ∀ b ∈ w.atoms, p b ∈ cell w.gen)
    {A B : Set Conf} (hA : MeasurableSet A) (hB : MeasurableSet B)
    (hAs : A ⊆ Short w c n e R) (hBs : B ⊆ Short w c n e R) :
    endFlow w c n m e R law st A B p = endFlow w c n m e R law st B A p := by
  have hs := signOf_cases e
  obtain ⟨κ, hκ⟩ : ∃ κ : ℕ → ℝ≥0∞, κ = fun x => cst x * (area Set.univ)⁻¹ := ⟨_, rfl⟩
  have hκ0 : ∀ i, κ (c.bondType i) ≠ 0 ∧ κ (c.bondType i) ≠ ∞ := fun i => by
    rw [hκ]
    exact ⟨mul_ne_zero (hcst _).1 (ENNReal.inv_ne_zero.2 area_ne_top),
      ENNReal.mul_ne_top (hcst _).2 (ENNReal.inv_ne_top.2 area_ne_zero)⟩
  obtain ⟨ss, hss⟩ : ∃ ss, ss = (regrown c n (signOf e)).map
    (stepOf w c t (signOf e) R law κ) := ⟨_, rfl⟩
  have hmap : ss.map (·.a) = (regrown c n (signOf e)).map c.atom := by
    rw [hss, List.map_map]
    rfl
  have hin : ∀ q, Off ((regrown c n (signOf e)).map c.atom) p q →
      (∀ a ∈ (regrown c n (signOf e)).map c.atom, q a ∈ cell w.gen) →
      ∀ b ∈ w.atoms, q b ∈ cell w.gen := by
    intro q h1 h2 b hb
    by_cases hbm : b ∈ (regrown c n (signOf e)).map c.atom
    · exact h2 b hbm
    · rw [h1 b hbm]; exact hp b hb
  have key : ∀ A B : Set Conf, A ⊆ Short w c n e R →
      endFlow w c n m e R law st A B p = flow (cell w.gen) (reduce w.gen bravais) direction m ss
        (fun q => ENNReal.ofReal (Real.exp (-w.beta * energy w q t))) A B p := by
    intro A B hAs
    unfold endFlow flow
    rw [hmap]
    refine sweep_congr (cell_measurable ok.geo) fun q h1 h2 => ?_
    by_cases hq : q ∈ A
    · obtain ⟨g1, g2, g3⟩ := hst q (hin q h1 h2)
      have g4 := moveProb_eq (m := m) (κ := κ) ok hc hcap hn hlaw (s := st q) (by rw [g1]; exact g3)
        (by rw [g2]; exact ht) (by rw [g1]; exact hAs hq) B
      rw [g1, g2, ← hss] at g4
      rw [g4]
      unfold boltzmannWeight
      rw [g1, g2]
    · rw [Set.indicator_of_notMem hq]
      simp
  rw [key A B hAs, key B A hBs]
  have := (reduce_measurable ok.geo : Measurable (reduce w.gen bravais))
  obtain ⟨K, hK⟩ := weight_eq (t := t) (law := law) ok hc hn hs hl m hκ0 p
  refine flow_symm (K := K) this (cell_measurable ok.geo) (fun x => (reduction ok.geo).mem x) ?_ ?_ ?_ hA hB ?_
  · intro s hsm
    rw [hss] at hsm
    obtain ⟨i, hi, rfl⟩ := List.mem_map.1 hsm
    obtain ⟨h1, h2⟩ := regrown_site hn hs hi
    rw [hκ]
    exact step_ok ok hc hm hs (hlaw i hi) h1 h2
  · rw [hss]
    exact steps_local hc hn hs
  · intro s hsm
    rw [hss] at hsm
    obtain ⟨i, hi, rfl⟩ := List.mem_map.1 hsm
    exact hp _ (hc.mem _ (regrown_site hn hs hi).2)
  · intro q h1 _ hq
    rw [hmap] at h1
    rw [hss]
    refine hK q h1 fun i hi => ?_
    rcases hq with hq | hq
    · exact (hAs hq i hi).2
    · exact (hBs hq i hi).2

end Verif.Cfb
